import Verif.Proofs.LagFibSeeded

/-! Generated by tools/lagfib_seeded.py: certificates that the bits of the first numbers of default constructed lagged
Fibonacci engines with `^` are independent. -/
namespace Trng.LagFibSeeded
open LagFib

theorem ok_103_250_32 : ok ⟨.xor, [103], 250⟩ 32 [1128119220, 1]
    [1244166191, 650954935, 2048325640, 1456648069, 2549608650, 133073041, 1521160534, 1853387707, 1421828221, 672626402, 967823011, 3266551177, 1407505014, 1727019132, 1443318065, 2052430177, 2478670540, 2692717365, 1059698834, 1983228760, 1324472466, 4263404430, 3526791913, 2148789959, 2442387057, 2744363459, 1961274342, 3876162052, 1168586628, 1742526793, 3111068054, 624667031, 1096329087, 197293429]
    [10478022147, 795795823, 9227063271, 10715558981, 2097123604, 9231039087, 9346542993, 1631347573, 9387619521, 2001936120, 9540697772, 9772053046, 552244098, 1557717611, 1293754131, 9563025603, 10632124606, 9370073366, 46556969, 609321350, 9176138888, 8986780911, 10412189101, 9917641916, 449253797, 491841266, 9300427687, 251190473, 9012834934, 1118029706, 1973341502, 10230183062] = true := by decide +kernel

theorem ok_103_250_64 : ok ⟨.xor, [103], 250⟩ 64 [1488663766, 1]
    [11466850153312962777, 10608007584196111124, 11169591726660750126, 8105315583578440900, 13525841037987887582, 7874326379758760299, 15257137179124345041, 7957839890531031336, 17948044406351162733, 5692193272941178537, 4145870534847166879, 5925759052476928549, 7690169778344638105, 3478958108318406085, 10646109009907678262, 13099510085081280391, 4884787285744964169, 7754356305679671536, 16003837947469044031, 15829970870811333373, 5145397919905420503, 11466509105244641042, 17421492845591836407, 18360449128034107893, 7560754895944536657, 10995641266411671900, 18279474347750831111, 3493192537039153389, 2605617377507056419, 12739245283013623609, 17255727881108401673, 10738446096340507876, 4468086524212029588, 16951597523213157719, 10138340285370514729, 13198312011471033495, 6850262212748023631, 1486745345523335095, 11760999200485738963, 5108180002177185665, 11022218597521014214, 11903655975526681190, 15654200411287951470, 16251774064698481627, 12315543028704974394, 15574328815232588106, 18353153235172963077, 15951450610430291442, 18383908651709321772, 2962948980518157409, 1775692982592875436, 5460347557500760057, 7570566141668733454, 5453314872040559967, 10224275766867232672, 7084881939324678169, 8126871267705579529, 13758362482876954564, 356497354876747746, 16312333040459326818, 8446551359074252133, 13964583476440068275, 4382580781224159946, 11418050706879954504, 16969862603481196025, 16325477840779920625, 12827988415791911923, 6844666074849470369, 9246215262729400900, 15031617666384684515, 2037163995999151621]
    [9877920283063560431, 1812448252870572501196, 1808426540884328513475, 1808379600878778504357, 1186161910157000692807, 37778574105762474606, 641713662968936331520, 1185262374225247610431, 1222396053113033471594, 1232292265623705393464, 46781203852717674392, 7318770067013499, 9306928956054303840, 1785019124764974260874, 101981713529977387, 1227349320634527529604, 1181204176625810201807, 14787597230967132597, 1217904499845301171466, 1817901804826822902117, 42411815009250596918, 1222179297511115892315, 1780758770511696534146, 1780199864253762572473, 1817878529782565279767, 1226761734281784911213, 595350245016443750, 1822506149950538996489, 402953780086970870, 1226741600585444196573, 1190529640241358061686, 5302026901106742857, 1817673268707054620312, 1821670393423745590136, 1817352038855699540537, 1185612307786130622019, 631828994986491398114, 37182411662363618369, 604774179763045567447, 5616879399246367055, 1808085716900143094098, 599883564290078553095, 4616593248146001411, 1194435861811526532417, 51109931562481462057, 1222708854713112777269, 1231459426864446857538, 590916716953206613895, 1181284953072837468144, 1771234368066493353753, 1190795807096798391159, 1771016607985554830266, 627528861540911128293, 1781095774971010628587, 594963518460052087207, 1227411756718007427065, 1812981160471691886301, 1776091223884238349889, 1821730269100718667965, 37506971113580222229, 1808147534379819479236, 1226826999944403965204, 1226766712019399942427, 595830883425003486443] = true := by decide +kernel

theorem ok_168_521_32 : ok ⟨.xor, [168], 521⟩ 32 [1920459607, 1]
    [1829758966, 405525341, 1062067047, 2766535709, 3788372811, 2644613157, 1191624429, 1920732180, 2742469003, 2241396195, 3905664597, 874758958, 468378349, 495956545, 1114080498, 2444901688, 1377982137, 2422985559, 795823961, 2674583569, 2103662226, 3074936673, 1675402412, 1554003208, 1745873353, 2090845084, 2834285827, 3986785024, 976705636, 3481606439, 798705628, 591997891]
    [3910631488, 4109918736, 2619841013, 2727837671, 1215831877, 311709354, 1703436840, 3403128914, 3125253143, 1965722784, 2995474146, 3097934715, 212813526, 3929771980, 3007928495, 3027262862, 1668765923, 1626907150, 432724870, 4247268444, 3362444378, 966439298, 493248626, 2988039344, 3257297775, 3267769340, 3314698234, 973583505, 3281425375, 748241012, 4224672142, 1896663318] = true := by decide +kernel

theorem ok_168_521_64 : ok ⟨.xor, [168], 521⟩ 64 [119760079, 1]
    [7768629545180085298, 15805274176734552729, 5522471164030607498, 3112946479874376512, 12195546208743990573, 18213838571685325853, 299423948099233160, 11687255200730645118, 9770939197836540369, 2497158784617164502, 11236627297383600683, 18197217217699858316, 11255659618449598613, 12815823754442965478, 5849809167390939728, 1675948916860024677, 16638631887510050881, 5688287042493082765, 3726723246687770648, 16932378229587554128, 4505714007417330563, 4218892855056851362, 5540724705462668559, 8125503265645584694, 13625458138498013488, 13457991514422332409, 523581765687931256, 9639341694232056049, 11434315649487433426, 3110838421763753517, 3692148700040312874, 6265655433332356682, 18378175687434514755, 11166205014484400649, 10229498957448715626, 7130835145427595496, 12850990464717818391, 14772631771800629090, 11697237464219794129, 11496619682891984960, 15874514119001559538, 17510710114537044207, 17492093581248920763, 9872521017339900047, 11519612800760583393, 16322122958253126573, 8355035041997212094, 18389970025732664955, 4271532094980991434, 13507850702349720894, 18062759700464518754, 10146126858879890191, 14638990684267541618, 17610162130314800274, 16027097332666231934, 15062174229216968972, 3696235007932531580, 353389654420059576, 8039700746226061375, 2689668199695792849, 3608122341371790323, 14003634361001315829, 6701483069916961189, 2298150975535522899]
    [3057631325711339198, 16176182056687029404, 9387458494205706917, 1339762946818785395, 14765476195317412681, 9133875153276116045, 15030981250272412533, 13287756600797376658, 4542723027936271527, 17633941899793363486, 13725644678903843604, 5007486092462635895, 3966187671467017318, 18250116187208941718, 9602168253682627511, 2910910960289670648, 14441217922342398797, 11648062990745104699, 3458957988326067095, 16883393216107383899, 8060815897436983903, 13650519153025896497, 13893580353651327912, 1576865850416849174, 9069464025958641198, 6213591026554911044, 10319116541895945828, 11247212522259540478, 6912316665684428887, 15039968053160255114, 223206587609846015, 12890960810466688394, 4003929425291297849, 4980380324456908814, 7670484827923691063, 6124582209742537889, 7214176472215748322, 18135056880555455130, 2050520731493181004, 5217178508169441277, 14492370719314480750, 7960637829015428160, 12348763773359979500, 8104544508792217175, 9023846235856856296, 17145586467681377037, 15697110158051380147, 12198522227691691601, 4355335198486174804, 7430023510006660510, 9198455399077070047, 12811080683248185792, 1783206083083299175, 6434127126612023681, 10237690308789660732, 14071547410164953749, 13973396441343184342, 9018615348795483343, 12425740638069666246, 17708114257232996640, 15914659893064788323, 1215411845784745419, 6972007524185226827, 2460365137013179701] = true := by decide +kernel

theorem ok_273_607_32 : ok ⟨.xor, [273], 607⟩ 32 [2127150970, 1]
    [3830157157, 159015202, 1734772067, 2724162518, 3107635231, 3135326084, 3312539368, 3993993561, 3422539647, 2087931258, 405964143, 381735065, 461489320, 2344464014, 1933146375, 1608728297, 919014366, 3255959850, 3818815951, 1994053917, 3912256529, 4224289149, 1971970672, 1248211837, 2292293482, 1193370910, 618951380, 1503765372, 4018336575, 2202875201, 1628003386, 2719444488]
    [2996685021, 533502457, 2768084353, 3805264006, 3329424343, 2381676391, 340471487, 2637014881, 3106270898, 2174966326, 507786496, 421832705, 1882404233, 3769001531, 871183088, 2662127104, 402664471, 1826207240, 300059231, 876214193, 911018098, 2535881428, 95609596, 1157162532, 1769462153, 4064238125, 2393970441, 1830376591, 3954949224, 2215458726, 1937312318, 302210755] = true := by decide +kernel

theorem ok_273_607_64 : ok ⟨.xor, [273], 607⟩ 64 [1382135065, 1]
    [4247182329229264529, 9161395147669669037, 17735107702261077541, 8487210180692804634, 10671950928735339288, 8842183552385379327, 17596823722211324045, 17884598722723229362, 5739776122817241618, 3262468003501236088, 6265970681880985792, 9865101804914554865, 12962299433866830967, 4449968353149180677, 12278203035292110160, 5942469851548766178, 5151676841766905321, 15175004375931643858, 8835146075468105937, 17456306736335983928, 15836391659920114948, 770520943329463805, 13405419214858437450, 11798145204168948892, 7391906251482599770, 7366034353201669378, 3361069319538821280, 14209885401919394976, 1772594708607405619, 6012346269373071598, 13593612899307844612, 17594604957016027698, 17862245154453319312, 13683700959792430687, 9845138116408280483, 7352849154318817720, 2949340067335946766, 7001531934902538747, 6239790576710196136, 6915308133202481193, 3025975326747730529, 6206661330531784860, 17219891191141745207, 16787910437255285624, 3784352987301528782, 11817407768370652858, 3442722036304517204, 18070348852579651882, 8506681809571960544, 15855285922536933479, 9813869012838251932, 1481166895509188502, 7771310798838477622, 8667538128281781032, 4852790926383759309, 2279248129249559999, 7769232407949819584, 15198409219473710416, 3142643795946527035, 11311625641663113947, 9391789978136463401, 2900660401311883081, 6309060801638823536, 6070609709535674768, 13496367988191226322]
    [35864562214349379820, 8494457943545501146, 18957806038512035605, 33965801778912160119, 5769755530201763044, 31371601955209490902, 1451529898019665, 2808599022694444555, 32702695628500640019, 33793808388298685153, 31294867664989523007, 36167517613580946464, 570961896678131840, 31582655791408133281, 3551897399993601887, 22390570543821439654, 23512692513491862643, 36309169188880303551, 23487457113263113496, 25728116790943379758, 11857734857797693679, 21005185878294370430, 12898441055413502261, 458017812312930259, 2532295099713989330, 348576101795589248, 19611148104952507927, 22087107668844783151, 23271690277088023492, 5131311294824325042, 25664188267733038020, 34594143693892798302, 26940344544722728542, 9225909813237714837, 5882947534694426396, 3565346512333294887, 29158207297914650521, 17348662293759030774, 14048404416956090745, 9528826153297399386, 15275126811524342255, 22324157866528071699, 19708176924312407756, 30543349673770645130, 5142470770674613541, 8230813660172952098, 18527974668400968926, 35860878532865955767, 15232523301388114151, 16655418668396746468, 22271842532533825083, 4955268941843711881, 32646673598056418470, 18547200004429711622, 22296513184795283309, 17698846100888708699, 35799237110309828039, 3577720213243027163, 26875063768858697080, 1259492322734411758, 23301030604972018830, 55444737496747732, 1547855552651517630, 15164465121797436644] = true := by decide +kernel

theorem ok_418_1279_32 : ok ⟨.xor, [418], 1279⟩ 32 [1585500144, 1]
    [2747305764, 1055706284, 805976707, 1888395515, 1573439792, 401562242, 539479107, 4140556407, 1708538423, 3834103311, 1112547157, 612024134, 566543243, 2898963756, 4006752586, 2012280435, 2103194650, 683910614, 1736195930, 2255777436, 2744479366, 2932649136, 110313817, 2964385409, 327858469, 43050798, 3242925851, 523391299, 3650918928, 3675118173, 1252109643, 1262672225]
    [248348192, 471323879, 4070415988, 2535763091, 1605312260, 391968615, 3290002940, 384592086, 242540454, 2435238282, 4183774592, 1497476527, 2711746400, 2794946761, 3634094784, 2189882142, 2978158631, 2263597550, 4261820241, 1175187855, 2704939145, 3635523150, 32911897, 218929017, 2579406109, 1514359852, 367894328, 3060120505, 915969956, 1025472092, 59044211, 2853402114] = true := by decide +kernel

theorem ok_418_1279_64 : ok ⟨.xor, [418], 1279⟩ 64 [514569226, 1]
    [4774359277515542567, 556114084875558994, 17376873255004183431, 16540601490924937768, 9191144504997982155, 12087932674483017512, 10983946647507863378, 7067816697014744136, 1173281120556248484, 2349663092937081253, 1463994515556235259, 6106909219508216902, 7464146748518704233, 2387545050004980622, 13613295366537491752, 12298918308940665030, 2320417329443134194, 11010410718320166556, 4934574041150057883, 1039896062459313672, 893995547962339052, 12354798502293623924, 6234791556459121330, 7892612574360025811, 13604582683164900800, 12459746609807734907, 7850253530368106831, 9818380509548936523, 638062265451301759, 6844299954930042363, 7882162870149661923, 2513985544349030504, 11762036820315789596, 2684465059430993522, 10623137693791473661, 9309424144655740419, 1188000259571773854, 12753644904601050024, 7063364887138871276, 11619860842621041377, 4409826622884570169, 2918135836334967040, 12570687648532347447, 13215918393587122521, 15948419729530708152, 115572227803368691, 12569965915259003679, 10700947236447699943, 7827618625671620871, 4689927593135121025, 11016290666556277971, 3084080207510758665, 4023610813551904860, 12519255477815100104, 9625519603292356172, 8533889398906967482, 8782399772349990753, 11826569184557479517, 15160949855242231898, 5172489493382713538, 650269459518294242, 9632146647905637373, 15417238228412530167, 7123059360083079078, 16895843424327551633, 12378131919436912547, 8865068405912768853]
    [39241102381025754381, 83307147242608308564, 83921854167998536162, 83249402447627074821, 110996975004544847375, 9589261682167564256, 37131236908633418022, 59883386858825595, 704823354792368493, 37710002499842439819, 9950887517263838689, 9629118801826112368, 120922879671103545734, 86187726262244539497, 489681935159759010, 295345826427731134, 74742391059536558508, 49098606281559241392, 120622827552366549544, 113385513294915813321, 3338545167478930661, 469200727353920610, 83078044548944146391, 9624121661966100673, 111196317188345161696, 111175731488052096297, 3132385526899112258, 48951267788663548318, 37751572234548226412, 108653077141510511, 46514895084560479622, 113783060453077948438, 74286313573576403794, 120143284788411604152, 37561236133582625134, 12536357329039110728, 3022949749697209503, 119938916558867918858, 74341564137247669714, 74298043244047769476, 120057190287682492060, 39869090450678358319, 913860011076641245, 122962963306147936415, 74517154868159268108, 39637536803919199989, 12415799751687874887, 122468460639645102985, 123293934580298231857, 47049294630256219998, 76184197650185714806, 49455653772010046618, 111745432644016830350, 113607731603849353696, 3245332073718660331, 113957779143850314060, 3457671450254328302, 1103769442791630622, 47219010189016623702, 369000033163457299, 120760608388846878493, 83776223203091847334, 77206184199114768701, 9288964508168067159] = true := by decide +kernel

theorem ok_1029_2281_32 : ok ⟨.xor, [1029], 2281⟩ 32 [1151258678, 1]
    [1000423992, 2928526392, 1046835072, 1907719413, 2920264496, 1598348568, 1576935893, 18774628, 1007542538, 2364452417, 2927160928, 538180238, 108560968, 1570692648, 1495497692, 3556075675, 1839558206, 2589023460, 3565652329, 3716867761, 2876576517, 325409955, 2654064032, 1363962946, 3501907541, 3106690042, 24659840, 614927743, 212416592, 3638930851, 3088614346, 113663368, 1373453715, 673341019, 3416104347, 1521871016]
    [1490855032, 35831101720, 424546598, 669833173, 34687946221, 34605788557, 35213608940, 597557529, 36180813250, 36449525149, 35321306938, 333438846, 937879545, 156641236, 2080068596, 35212394179, 35844257071, 2004230876, 35071773942, 561709537, 34514728384, 2028086126, 35967177265, 35375137191, 36412567798, 35186359668, 1702583149, 1141266488, 1523695801, 36313725752, 1236985337, 35451664700] = true := by decide +kernel

theorem ok_1029_2281_64 : ok ⟨.xor, [1029], 2281⟩ 64 [13192617, 1]
    [6905758973233292598, 11546726687093422508, 3108364645992338965, 4527244736092436163, 11088266725962491537, 17567250660716226257, 4149003380499709662, 12256602282804295720, 5027879872552565874, 14161007071360330987, 13194586652867753103, 13258043325000787542, 669038751674476537, 15426602581095573106, 10796038633187468503, 2396452309691056543, 10588274487455377992, 1085216428157549068, 17422743731237354614, 16196016546678691281, 89079367909917151, 15010202629824317991, 2738956123994282508, 3447957343238927246, 5513818999784192503, 17943294869936314682, 16154131975246394591, 13518779401915874631, 14075703319213073655, 11741559189817491447, 2365079441924174861, 619616478699799627, 489545382388948847, 6330251872080219688, 3201921115038586043, 8886847363050561981, 17717847287048909623, 11910698619724468692, 12458426932132964249, 9034375564319021169, 701450537369775070, 10722027899084588923, 16941804913093686742, 17097402615034130609, 8664186859343446425, 4196641166018134010, 7350336134306735925, 3403791677816220648, 15700386750433101308, 16592521281964675903, 9403369285152637782, 14163803633447349750, 8217362278041933447, 5522794463768022222, 5549396738174334874, 696439168880604071, 12497950540235544559, 4684076431458528207, 10900053814659573818, 9598689693909277626, 11042836838231205155, 2894602978882584839, 2651277601696791416, 3742012828134873041, 18167606550511851946]
    [4350889136018689243, 12110067407251193484, 21801100723581326520, 29264325442617503804, 9951940166449369768, 29106964770756804487, 12444694714362860999, 10467104064812311182, 2932005522058829808, 29092349427151368223, 3820097966157587134, 21562685407587704844, 3625884177726607434, 31269422778171495394, 3687002558623724476, 13467143396016362426, 3370259646013169171, 31031280170263174794, 9322783764130077209, 305295732849218668, 3076284666215092764, 3500290470217747519, 1510544958522207131, 3929763684511124630, 28696203905401916545, 19354722761041331737, 2919584401340447674, 22150801908561692783, 21643233467375970043, 4401394039794086181, 703534873506848785, 22629536026142662357, 18610064317206003999, 13438963202497680914, 19141442218198464851, 30628009493871838777, 31613738815032567571, 2979374536446048746, 179709527996003345, 103199178800613934, 3848325273877459173, 3472081915034687678, 29238529622634355706, 18475395038823259642, 2386255552996315578, 1794042128588348978, 19135294654523509861, 31431099420073139531, 9320826245737981249, 1357054352566640643, 21290756900451583658, 13749787924492993932, 20263455271225586882, 30887142560519895588, 10112255931105496552, 19559111347733506692, 20181682054251474900, 12374982207816322374, 9627158330505594996, 29118542621801244724, 11728850512057408453, 1027105558686243331, 20512735118629249912, 13727851401242978791] = true := by decide +kernel

theorem ok_576_3217_32 : ok ⟨.xor, [576], 3217⟩ 32 [75308923, 1]
    [608810415, 254802760, 315923395, 552923500, 1945179217, 4148923509, 1031059884, 1737975640, 1443086181, 101421360, 1074058645, 305946016, 2649400818, 743099562, 1927232763, 1827826350, 1870735063, 1302103216, 2795782392, 1129913805, 2540873570, 2383974176, 3485675347, 3043816425, 317620441, 3202505240, 1062630827, 770943672, 2722467020, 2092176048, 4292401412, 3542434414]
    [1486558134, 1394886768, 2023008505, 4177271930, 756934738, 2225721429, 3854467861, 4087271441, 1751967375, 249587469, 2324327534, 2777167797, 400943890, 2278967041, 671580842, 2485044115, 4235671131, 1178986432, 3310081163, 3881174533, 1421925868, 2801261904, 2616222577, 2290807548, 1008635124, 75682573, 465957018, 4025333078, 3675512215, 2168433108, 1927115597, 438666423] = true := by decide +kernel

theorem ok_576_3217_64 : ok ⟨.xor, [576], 3217⟩ 64 [438653280, 1]
    [1735982796745503706, 1642722452573302000, 13649830418338742001, 4947909477199874830, 8002182996670658428, 16584666778173352995, 10954827490336064949, 2982532864772326053, 3703277077844970091, 3427885356213947658, 16727886372282623312, 8561657847323555115, 4670837162666901057, 8321411356699668716, 6041607727166611653, 1473164000755188882, 15299021606509148630, 9616521355022253715, 3355432849599133453, 1471743698229536795, 1215600723774856823, 15039979222390237214, 13537076504978116303, 1656274682989848577, 14097221333361323099, 10855960979871180104, 13648914501434619154, 4720602443768396461, 8163715378218024305, 17943350167738565901, 9166515139774730641, 17948304264325627303, 12619280930332451666, 1052019717063882314, 13165795621023903369, 15943614626377393029, 13794402582838243255, 12517189572943425441, 17177144937431660999, 6200166233286141237, 1610273614082996167, 18372372402724899365, 2612203835200369116, 6545851033042798567, 15403282561073360474, 18089587581329945665, 9351854444131078871, 12262741901181880952, 7064615886312395104, 13868595378603371469, 234140931186428986, 4211655047827388055, 3986076596873518107, 7183531065982499122, 14828341903816262315, 10948770360718095549, 1119549859737882111, 3625915075943308650, 13004240524985193694, 13312241809640221342, 10976204512279652641, 5240182292447534354, 13760385816928040984, 784408778082300533, 8518391450967224917, 11062063706236409395, 6006091820805818010, 6627214260502033228]
    [20859497846238139456, 150117262742617234024, 22783005878121987555, 2276834433845640087, 19202152068495777077, 167286125767445532605, 167368489561362447915, 152030577840929850326, 271704072202800385, 1269622839981983185, 2892712746156162763, 21600598680240558196, 168844822603604909750, 151772970587939721557, 735568559647199301, 19683294051782421489, 21712781105511817490, 149925110522959918247, 166030149284568487397, 20670104918132986112, 2055867501363613228, 150001471844040595633, 18658072562353249593, 18623228802609625310, 169267155842579062407, 147994770402505680696, 149968652145210801529, 18761886716939870190, 19348425963287710423, 21146924172965430580, 21395573734483583375, 22166116876974731469, 20854710617172642716, 2346318863498663438, 18571050403320431547, 3396401105674087860, 225600953999496634, 9761905939323240, 3868156346107354270, 169638746599418371138, 20173005812909602, 20146780214290790815, 168333916293858086958, 170298803390207894648, 21031748132580166506, 4136203367868225526, 151037494601670892402, 167199662522225767281, 169736917104762100211, 151152271872267080976, 19314136579000053138, 150386549670033685402, 148905587254427932559, 20751709477118061313, 148826958756540859883, 168094694818685722278, 166733898784588222195, 1176992843364823150, 1325868554367319578, 1333454234832168692, 149919217636856898689, 3118592764873481464, 21955204995615585318, 20443893420057815354] = true := by decide +kernel

end Trng.LagFibSeeded
