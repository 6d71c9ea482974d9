import Verif.Proofs.LagFibSeeded

/-! Generated by tools/lagfib_seeded.py: certificates that the bits of the first numbers of default constructed lagged
Fibonacci engines with `^` are independent. -/
namespace Trng.LagFibSeeded
open LagFib

theorem ok_2098_4423_32 : ok ⟨.xor, [2098], 4423⟩ 32 [241881284, 1]
    [422718846, 1804448866, 1086864574, 3037955403, 4139440207, 2472030060, 3961399819, 17425335, 3343624478, 1321846342, 1404971046, 1187593433, 914742703, 743996167, 3598767871, 3724971872, 1947586205, 3808593108, 477707506, 3625183251, 3105353374, 2229218971, 893781869, 3957524455, 1867190739, 3479302096, 516671197, 303485845, 337907902, 3107322716, 1252598620, 3202614269, 4188786806]
    [6536797539, 3050315608, 3202270373, 6900503077, 745426083, 3047428325, 20768277, 4616981423, 4318130872, 2852778486, 6754954123, 2161657699, 3034110056, 2771831288, 417149848, 4326436410, 155267667, 2799397864, 838104368, 141532206, 661612439, 4396669009, 2630961743, 2559684692, 304572574, 2572475011, 7148949690, 142697232, 596081538, 7472022247, 4647355768, 6812106343] = true := by decide +kernel

theorem ok_2098_4423_64 : ok ⟨.xor, [2098], 4423⟩ 64 [2116996317, 1]
    [3021335094965829764, 16569340234874747608, 9748856331663741735, 6224714192403287542, 15928396860391668105, 1373548420505763388, 12922940163613212031, 11260305669572303364, 1593069590767034849, 5084520705711198751, 6401191507217916013, 2354257613026205997, 3705628750183998818, 2375239943071964227, 9125315176463916799, 16904741229746790340, 15402967817949339512, 439803061151659594, 15365107056104368202, 8525280654542896228, 813834546873547245, 14894704641853526285, 8921034060429122489, 1992892858694004974, 8032057266858255915, 3114875406418670066, 9455050220132684939, 833580730602326793, 1705924586884979215, 13604642036060819207, 17521889458451410858, 3221026157807154153, 1568066549595279782, 8244431572848125335, 17775610022140265589, 494229710839096003, 8303888617133225284, 18102374075685249039, 12108424386434097910, 10317276453803581005, 7995349267365732271, 7612613012529332654, 16495120579598212174, 4846021532853007822, 9700960463754927894, 5581439375896552801, 5434570973103868188, 15764348879013156613, 13707292421335511866, 6734913915674344107, 9738784989546904347, 13032553418431276479, 3771718472779241607, 6750181664312898992, 12324056176053973363, 11368635477887722501, 3772980998321528434, 13981260664628774378, 16509903459652760371, 8406013442627072752, 475114513942835136, 14204836951918424531, 5541405865778590073, 3390955105864783524, 1791408267114173917, 15258509130541868946, 12761007131961027088, 15375320207196510125]
    [1761828526818669804, 1825106578515599888, 539928763562884199, 148324593967923092423, 148802975901032161823, 152869228404535214137, 153985490877107071640, 148222097205971312833, 152383469893493176041, 3012600924605689304, 147665977666244544056, 3768398658119149761, 3283945383360346064, 151877437249717123229, 2659914208522675589, 151679461642276602521, 155769724800597432923, 5011387791336519300, 7315546498550078349, 156441790186293394169, 148420922802404217659, 154823703358427639087, 152989318911372176192, 151860139067187757212, 155420929868098638954, 151934151559972589739, 7526486029085855381, 152265393961003174915, 153586197232494683199, 1261239083095670782, 7298730291926347101, 2818952098764220028, 4152603989177428223, 8278249810750202779, 153909981949351947484, 156553354242175075676, 8017894085615113083, 6058732466647522844, 155651370282120241238, 344329058501516727, 8373317995146573508, 151028355631240074951, 148042523521910019338, 154575010043902310692, 1131562065490333833, 148306783380391768060, 2091854636339617906, 6686401807135706904, 153580746131217615912, 2606692062603152984, 156186088059955429428, 155073899847080670786, 149667044173203642953, 150809111884490882685, 155355267444709122601, 1684729706054904356, 154233448952266164720, 303124227226138254, 148706290368483890636, 147899026169424579356, 2768295778180709450, 147924656519865412498, 5975147767687584450, 149353965434960318652] = true := by decide +kernel

theorem ok_4187_9689_32 : ok ⟨.xor, [4187], 9689⟩ 32 [1045384229, 1]
    [3001130137, 600141950, 1112931012, 3737014715, 1743733828, 10604083, 3832962909, 1475027483, 505696028, 4048474768, 4206881599, 2815186806, 475490285, 3299114499, 1742823084, 3964071246, 88436715, 1067805312, 2598483104, 1388609067, 3281956574, 3631369248, 3331219719, 1925988674, 3814717372, 3512313073, 1359492531, 1622109950, 1827214899, 3075044082, 1456110188, 501385466, 1853127523, 56737026]
    [13612657111, 1760134433, 13618078988, 13206287314, 1405142170, 8596522019, 13969964628, 1880792191, 4986228377, 10117999739, 9005416010, 463259870, 14134089588, 5788428672, 5378649725, 13853910677, 4602584020, 6052712835, 13443959036, 5916016484, 5784609831, 6086588006, 13691534722, 14120915930, 14274325490, 1919770255, 10088738815, 1408126583, 1777772754, 14941287828, 8994603416, 4485318071] = true := by decide +kernel

theorem ok_4187_9689_64 : ok ⟨.xor, [4187], 9689⟩ 64 [533790781, 1]
    [16253037706324688855, 1944678746586528209, 4116400245560022036, 8897718873381466693, 9436344085836077682, 17526344535922396999, 2880484043599039859, 10584573836391161375, 12448198740749561385, 9708548299717190698, 9567679427568284974, 2832491521314792471, 16827648992855367140, 11816421450200253718, 7047425157454227166, 9457695454330106800, 17705348604167074925, 3572956312470910717, 15299797868131627818, 14220435418128053749, 3780623072696634145, 852398698907759601, 1144674075901329686, 6268467568089477390, 16279303399962441159, 18129018520498444278, 10486721590883137764, 12660124897170369945, 1280765438769935261, 15606474851334036105, 12888741178328568235, 8779512746484549203, 7049394160109521049, 18190009043810064532, 7363607333950639079, 5998668849176620762, 15153717301676510365, 3750264228990656877, 15522000688502559367, 14227263144886548112, 369977560965194893, 15549501117748158023, 3042211125564423363, 16567509946816899174, 12652777009134187496, 17281431586575693405, 7926798013772957320, 1845209341749891225, 4931893981698727309, 7879756015078134041, 12822043387660491034, 14719553190880665049, 6621659140067522464, 15655649884592148041, 12779775807125076398, 1239309842480812633, 5882540559163796960, 10284468778647050873, 3620403797441976240, 12891864819773621071, 7628397701537359504, 17435986886807013091, 11882883170688571226, 8173978775078468241, 1657309148161766884, 2169523809379448981]
    [437062625832399154, 42608026783046789929, 5060784342276347760, 43926537145773780327, 9906296215105165334, 37962527403109237533, 46463391214052373801, 7623615170939290827, 17208272484298770553, 46349975431874812147, 7837623516903546872, 11899289774776009192, 39423165284588915825, 402711727032687105, 49203016730395623533, 4830673648769583923, 48765772432781905256, 16850216108177454369, 2588117127814305225, 12028830281665765021, 9854155307094292915, 42094952337596338696, 10211310999265756707, 16282171343948770152, 44805486211894925629, 11975957042179223794, 9865657748095438741, 10288663170047282126, 44006942263068729270, 41785402760474963258, 4785035737684025457, 9609255055498144962, 2452188067916302482, 51635931496355035870, 37531692657381451187, 39441366898119815649, 53925874119829647675, 483199076271571482, 44356032910788621783, 37086982039587505576, 39402428007858339000, 745110254330049168, 14935231656182303761, 49460718768180753088, 7629775251012155588, 46971650357767930600, 5415462738070514714, 5094568300931354877, 2944730112465543032, 37097170959624009539, 37977930205062113188, 12071228068548102826, 46391047517026521264, 37303858037468259853, 734354888747508662, 1055157166064430964, 53623706640547679356, 37453258814832503714, 39842667491845233802, 41617664848259601959, 16312675912353881158, 37012416754122603999, 40054363256265124859, 16972989728244330372] = true := by decide +kernel

theorem ok_9842_19937_32 : ok ⟨.xor, [9842], 19937⟩ 32 [1378746246, 1]
    [4042721144, 2702940997, 2276980253, 1482623348, 1420859861, 3649515740, 1429666309, 2543016892, 2049367871, 348691974, 639617511, 3388164000, 1373883392, 3305989346, 1233740963, 806410689, 16658908, 480955798, 1740829380, 3032814631, 776263356, 633324200, 1730410477, 3347321007, 3632341693, 3366445243, 1600928458, 1037725432, 3291990751, 904495070, 2254381137, 3318154603]
    [1571834655, 3790314757, 3954459867, 2933811939, 1956519441, 539869615, 3270869320, 889339742, 3534356499, 3077795307, 1281731523, 162293059, 3717330532, 226369444, 3399618703, 3919714322, 3854597519, 2785853671, 290326908, 165214309, 3537199134, 1422278420, 153639883, 4125512403, 1674074572, 2507751898, 1198009753, 3365276772, 2124958247, 598590617, 2423082642, 4094939141] = true := by decide +kernel

theorem ok_9842_19937_64 : ok ⟨.xor, [9842], 19937⟩ 64 [1626028559, 1]
    [12324452410657286761, 2337106925675364786, 12022049706003473010, 13316238061855030027, 9888518718392725459, 18257566765337852287, 15605541543664180267, 15046441999095878245, 12967541147046924363, 10474704887191153488, 8835445774823504476, 1549891189784990705, 6923647039153390361, 3586605388803897855, 8624819348722915241, 1442789412906829586, 8911111978952511136, 15386661609974147016, 7047411250592402222, 15006425233820913468, 8534002291908643963, 13742376539655800519, 17643160756301748577, 11616966227035687752, 6581162205353269034, 12399144240452792365, 16080075905948548706, 12112797965683570214, 9138350422427381550, 5462297853153080569, 13252013488934239629, 12091814921215748782, 99821539299690194, 11668358891058853502, 7551105867406625953, 14829439415446129795, 17210141682333800183, 5732228972796353239, 9068345035809054453, 11312517191476652752, 14413445261698661876, 15605766520700311576, 14927811335424557129, 6075417854356583734, 2891784839154493491, 8437652262651112708, 15770501247978440434, 14388433510858832085, 12130468647578764285, 17029287809992325381, 8700109100536885197, 4075275981421786035, 11784140197379801610, 6284237901302961205, 9838445431476674766, 1904527418124314289, 4102419038187218851, 6685477654372479493, 15751886741724366512, 6152754939101549242, 13894705370856263508, 18267872282450156961, 9077859030177237342, 10116323928000097574]
    [15058405340147815780, 5221541311469896908, 9211541411949928510, 2364103020618422257, 18268036022628400655, 508680826036698639, 18028341918801368807, 663972778083475581, 12063509724656259394, 16294493384964467864, 11595729882350641755, 5021844104438271801, 4911286205477844887, 15286000808707401682, 11124908716868620633, 16220353129877120187, 17747106981978151322, 13302022757200455689, 15501637150955647758, 17955404217188983542, 5394144140923202915, 5277384091516920897, 8310709397239603865, 6249744926906949865, 17978830065408196325, 2142219995015095311, 6604007926544370373, 6638543081002912873, 15239362663708701237, 6189613283293570441, 4550398797122525393, 7425074041455999182, 15650103867692579015, 14401481522294566855, 2457814235765830367, 5956462286062182834, 6657234465683264718, 7396974024684559924, 9314384686529142936, 18046214642677455052, 11442327778041979168, 3332750766021711315, 12497443336601313984, 17816903950305916799, 151161747502367346, 3706792745023985099, 10842725510594641426, 6045103936745303733, 8349736039379897022, 8603474905236894880, 2942768511018427624, 4536875444841954948, 18011630098582358689, 6514357896782995618, 18351907665542372828, 3035350933142446526, 14835788314097542056, 16840400682867534356, 1320269493977575806, 144902796905557364, 16687845909216223945, 8783232246805767978, 18376838181848822054, 7506252914502921304] = true := by decide +kernel

theorem ok_471_1586_6988_9689_32 : ok ⟨.xor, [471, 1586, 6988], 9689⟩ 32 [120162518, 2123268840, 1749306363, 1]
    [3234888496, 446359645, 1753216646, 1810608894, 4234163746, 2510407461, 3420721701, 2460851676, 465792427, 2752518056, 3476684649, 1857727098, 445797786, 534029219, 963441563, 3934982174, 355600278, 4212290218, 2869887767, 3314468275, 3519690972, 537746542, 3288235243, 2631332145, 2603157315, 1164652612, 3931611048, 412561576, 3855342942, 2581146418, 4027129463, 2289301567, 1580566160, 152201734]
    [1116875056, 9299746607, 10083121139, 756257067, 1501353778, 1805966656, 10518781478, 342762545, 22060301, 9300347712, 9325974828, 841600666, 1338010796, 198602795, 1262085093, 843271448, 190446348, 9727023993, 10618910226, 968244445, 10221863396, 683739622, 902436922, 1150522733, 10093806221, 8745161644, 9511786915, 9947850456, 1536774379, 8860557229, 10445038344, 10105700989] = true := by decide +kernel

theorem ok_471_1586_6988_9689_64 : ok ⟨.xor, [471, 1586, 6988], 9689⟩ 64 [1377217365, 1500619428, 953427970, 1]
    [6861408913840846006, 7161786794482929332, 15127245138036265315, 9716290341417064378, 15406541984072879335, 9941258523265552264, 8426795441751851305, 13099650891802294641, 2789183191053661277, 9199825044229581491, 3723634177832903973, 3997946137876290091, 13339460181658998405, 15752847528018103063, 3572827671891427872, 9414804916059451893, 15135880614937242844, 12748014602700685519, 10466232768665493724, 1840325473151819906, 13706756055785992418, 14432604861681428158, 13917561751375553344, 2991451201595465579, 11373574901196301178, 2639603130194401954, 16141632011766623686, 15684139494248378086, 4719574734128682773, 8998748398818954941, 4654435607816542387, 16716095261481272836, 728274646289649988, 15220906196188541060, 5715656149521984648, 16056987493259642524, 10796669526914154388, 12450385733014098442, 13462154976927315144, 3011354301242341596, 18316584740012447547, 12523152098586614743, 17255604266837114097, 7994672985075832520, 14249752386106787896, 10438332796062944272, 8158123013544059633, 8533770194211375960, 10074150712087708846, 1386337445954640686, 5175279490498679067, 12647804102477982158, 14991249515949010609, 9010500775948386613, 6369681365816126986, 624504396530388715, 5747026929916962006, 2352104773561871904, 10572487997432588370, 7608127701361361522, 9530726872001131682, 6472430089317379012, 3206616676388616647, 8706681741770680912, 6009593342766665858, 13225896169346885221]
    [8105298968618952908, 41978036156664571400, 39370972696554211232, 1907126512543887173, 38759015235231985147, 2637518859667432654, 8966773191423264934, 6532713266253883578, 42777210960737727315, 40136831014389671245, 38472342285371132239, 46061189989976063774, 42402037656003302979, 6262219374865463036, 896092680574113096, 45641105931321778851, 44609337730322087741, 44710079187293340885, 44052132200273571573, 981293625910663209, 6752306511408341941, 39587939387256170870, 1835977907233431661, 40575136899611677136, 39658843264611430480, 1608266712183472641, 38261366837886568074, 2905680028219067654, 37331600460236831768, 37820766585557502492, 946326011714139716, 42083747691094503654, 44698517855345337430, 5788486146464462710, 41835341983432560532, 3197795455556776634, 6002841295497615496, 44888073576670025899, 39205312209060130540, 38487077311181060868, 44698871058473661597, 37506395699298528375, 4826506309421611786, 1788271936733127566, 43301929148444276337, 1495150391965606661, 41973544616971904358, 2986431836378203511, 3482179510234301142, 6112436358532542981, 3130102043347299682, 760573953284279472, 39975097654785468278, 2348870335567581645, 1899544876072909256, 42768701952830584966, 8646426385041143641, 959648953010254153, 39089430551597730797, 45844640867035070754, 42294798697242157986, 7088192955535032988, 39668805474096440520, 3547809676226398986] = true := by decide +kernel

theorem ok_168_205_242_521_32 : ok ⟨.xor, [168, 205, 242], 521⟩ 32 [1920459607, 851810999, 26832047, 1]
    [524560942, 4201607720, 2827024527, 3141782038, 4095611240, 4153287644, 277025137, 2537330985, 1043865446, 2953268255, 879389642, 3279665365, 1754213120, 2627314470, 1189462853, 1405250146, 4152039023, 363946424, 473833209, 391603253, 2235557037, 3237199049, 250141612, 2242317807, 1028782786, 2915493317, 2202828478, 3978674762, 1569133307, 2973424657, 3153713269, 479914206]
    [1850323653, 1129142023, 923347342, 3186513855, 1475567664, 748484623, 717217866, 4233290097, 3110595790, 503914397, 3803737505, 902773678, 2850500208, 2500055260, 2285956929, 3115117232, 2171870629, 258696945, 970710480, 2146888396, 3533906093, 2458328979, 3656934213, 3966795617, 2124216945, 3533051004, 2151634514, 3667079014, 1299582075, 1359435809, 2826193999, 76722771] = true := by decide +kernel

theorem ok_168_205_242_521_64 : ok ⟨.xor, [168, 205, 242], 521⟩ 64 [119760079, 189415615, 1968651577, 1]
    [5066481001202452544, 5305057024513616856, 9664506988921362381, 15576721903694076313, 13603264470168631635, 14710853818701982223, 17519015762727048160, 12901161113265826414, 615423652805097600, 11333960278714103003, 13187901327034170303, 17796818238715472794, 9976392955043304939, 15116472003481886117, 14615679434691423842, 1143572819896093989, 11923544741685089981, 5579609659388357001, 288415255186605480, 2793451565793858849, 16400364197773965908, 8065769603047909939, 8359091071643715325, 3402787437750685491, 14628604654776088554, 10601912146608493852, 5827902559047695787, 10570669951941954859, 18165990054039760642, 5725621510518002307, 9575784483053828821, 16389570212773918061, 1631751337309841598, 6144515192255035362, 13519209518708157112, 13226658473874054636, 15901739246725018733, 12709584121935108693, 10643598156303221385, 1099906491300757101, 1565162427887757623, 6742750312765988461, 16417596063885295112, 15681450692971566370, 17877401413293082889, 2693241504285542053, 3087278368268272825, 7698318117059816951, 14587471017622515841, 2982008049604306121, 18311370051187777430, 12401680395544174038, 1152568310073099096, 234497359631443671, 7346915487703229187, 6935713853333821740, 11290369452706092003, 8267349966354337328, 13763547156695165321, 6750765575791341009, 838668956564435687, 17550646697766426688, 1680279761418824755, 15743190188991202962]
    [16963311941285496257, 3818574258882113988, 11881150452725263709, 4737630436592068873, 13906394462776921845, 7523457055783044422, 14181655954089369977, 15286327419593688472, 3671532340698079075, 17801040434162158125, 8086205404101822597, 16176849355095660646, 16683027371569079787, 334697689639269632, 17022164768907703999, 9672521111034314954, 17219587278952275372, 2622323921873159530, 4689806432235929402, 6370906608676965967, 17139203165942482022, 12548582736660925737, 4484931830443236067, 18123782826299850311, 9221236731551413303, 9808912088561018634, 5880670258610326968, 4135523162162722449, 14974782500498866185, 8483814798003556912, 17056080246177364769, 7528399080141440407, 16345090534118025516, 8816605042661786194, 18014045309844789112, 6732696477613156055, 14116281310373105528, 5745737495044393322, 6535912886479942443, 6035355973501725831, 5094783141208563054, 11563469815144518981, 6824329566848412521, 15761845540566014691, 8143753046747285921, 15994156825645313048, 5002155682233979532, 7066076574805078315, 16691739058079171634, 4006882003950393867, 1794008161809025081, 9811736063746901939, 1028757798049605445, 17966388209113222413, 7009158711047522297, 13740727582456650666, 1181746024912099926, 11373018721886067708, 10824854740038217276, 11447491227260999089, 6577839119818207929, 5861881122540193599, 3265397236334468594, 14328607148905791447] = true := by decide +kernel

theorem ok_147_239_515_607_32 : ok ⟨.xor, [147, 239, 515], 607⟩ 32 [91562135, 1498503384, 1679953748, 1]
    [2512412245, 1327062481, 1774272246, 2655500112, 812185862, 2743504278, 3392108252, 2799231715, 2147942047, 1757585288, 2786960042, 3037436049, 216257846, 2547426307, 744109121, 462730764, 2700345377, 3592991465, 1450441488, 2789219016, 2776159767, 2269388085, 1080132332, 3225457229, 147590728, 4051824282, 1864329196, 3204298711, 1918513201, 3112556608, 1871590281, 2665228349, 2987026806, 1450983460]
    [9696725871, 970623317, 1508871878, 9852751459, 10298396942, 9349513697, 1494845794, 1417694556, 1480860358, 10330731660, 2012814200, 8885552884, 632495656, 9376228268, 8991616720, 10659715819, 8787169034, 1560149634, 8961717155, 8829299667, 9084955824, 1642128547, 571432839, 10665313552, 1610692720, 439412136, 1917728651, 1395207398, 9322062595, 673634810, 10310065971, 10593514067] = true := by decide +kernel

theorem ok_147_239_515_607_64 : ok ⟨.xor, [147, 239, 515], 607⟩ 64 [879209162, 1171818879, 26227860, 1]
    [7556471401897330253, 13414770422662114151, 18125062745837765532, 7224688688380434945, 9936815688617442496, 16876088836389249047, 18258675286373933433, 12253641114071598207, 14848187211278269841, 6723089972027416912, 5509096594218871806, 4365725395950777800, 10730300831257084392, 4828677796674356126, 13793376847829192585, 16565410192732060106, 73434836958220968, 2693430255063841581, 7463760761015184832, 8220976443874154561, 5825427205502474935, 2054599764417974617, 2098845585105278210, 12039982332396290736, 15601143399172910496, 11812433717444464743, 14579421464694495388, 10684187912809946703, 2121226184911677421, 5597870775007970971, 15766378640791527382, 13485018876092226067, 10413681221770438623, 16442349538170705641, 13053699683278733109, 15678811407432634376, 12694637589492391069, 850208854909287393, 17510027058167281229, 3312624134981508417, 7148885265454744422, 3442445441628318157, 13142112963866055287, 17107610557929166669, 13618628773432803660, 1528105216659870860, 5938470968771897657, 15733553636469645297, 941330798168124751, 6821500051930547152, 13920545001629952032, 855380341011633144, 5354281560005997064, 6387468848595177284, 218629569096341073, 13780253263435956315, 8149801719360264533, 18008099102037743384, 11635808893968196539, 2409543984527967475, 17440630941533749690, 5907197000611452904, 956739553048891065, 2998416311389801, 11209752225826302859]
    [21352024203426541155, 2176918747945689777, 1185487646509744471, 6450419346109230127, 5836913140657097627, 22619685684216892571, 6405970707474308750, 4001258818278740614, 23216013148057128357, 25260228242518015559, 18779053568421273394, 3391929282852362080, 24522607229955351070, 8854128588844052768, 5930057752893117181, 24298150213549093891, 8394308007396506888, 6264510059668978675, 4527222560951181937, 25936996585478656538, 24564524041453301063, 21949564408863905268, 24959959832588238764, 26344480425981893042, 7541962293372127058, 23713205652889460480, 25139070316018237543, 25466631672352892643, 1155342055757873701, 20800901765782026167, 26049578256189258303, 19674177202042229334, 5585149601236407161, 695461966894362568, 8348822254907677463, 5475163894021158680, 23854046607695169276, 2144204016488258461, 26904419749309353214, 4641038127353833336, 25099086433760207772, 4272071399736887846, 20604396965908948337, 26773420420799438702, 26213285930700808348, 4458187479727659175, 23240475886003866858, 25382879546584668431, 25941802178343265886, 7786452497216330573, 24917168156653919495, 727805608510903961, 4284085563748955328, 19881553857373877527, 7407936967057954848, 8274711139545214777, 23713644501450976625, 4730202066331105164, 4498274565195537161, 22397210261131694953, 23094896987806736227, 21328848170456419401, 21744931906152260433, 232135394303479691] = true := by decide +kernel

end Trng.LagFibSeeded
