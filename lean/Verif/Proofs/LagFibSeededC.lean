import Verif.Proofs.LagFibSeeded

/-! Generated by tools/lagfib_seeded.py: certificates that the bits of the first numbers of default constructed lagged
Fibonacci engines with `^` are independent. -/
namespace Trng.LagFibSeeded
open LagFib

theorem ok_418_705_992_1279_32 : ok ⟨.xor, [418, 705, 992], 1279⟩ 32 [1585500144, 1141206776, 815616749, 1]
    [385795705, 3460410086, 1203836205, 3228681382, 3173639143, 3561779936, 4121918557, 499573541, 2726530259, 4219645818, 2296777549, 4283775132, 485534492, 1330416424, 4217209394, 499050179, 984077172, 2409578989, 2827830794, 1195926418, 487096200, 1399024621, 3073613412, 1325721402, 1185074094, 3189748704, 3029403097, 2999247983, 3307015772, 2529276795, 1183490437, 2517789047]
    [239407433, 268235117, 462439048, 2931728997, 3227354140, 3467374311, 3340705236, 2798728627, 2054418396, 4188284575, 1519829214, 2575089579, 114121572, 3326289754, 228070397, 34570339, 538771359, 3949871704, 2680817103, 4112383662, 575552479, 2125660059, 839770125, 2812139318, 313648850, 697667364, 2246842643, 3322880736, 555445676, 467887315, 1487721312, 1062613839] = true := by decide +kernel

theorem ok_418_705_992_1279_64 : ok ⟨.xor, [418, 705, 992], 1279⟩ 64 [514569226, 1777325666, 1141206776, 1]
    [9767508263888172482, 9017999175114048599, 9558103761978128554, 16804311874081924829, 15619492596764550938, 4734346583230809861, 13616891941754292104, 17142493942915957055, 8644431479909105984, 17919413246141155241, 10569477658790625283, 17990135093774243956, 12638284969336988391, 5769562254056176603, 5736501842128683916, 6017954510083770096, 11952136665109999462, 17386395781145133291, 7212765399359367320, 6182913570876131379, 14688975825466528289, 13759677625441262858, 14265898273326630004, 11393654075077432432, 16949299361525701507, 18322274451278924797, 5366902110360981372, 4634536832973130857, 9814182656033400130, 11997252110064886972, 6636341756056380573, 17972139428624869618, 13225472570738251463, 9497767531295997957, 12911655022228909640, 14888678219895893389, 13335334782804610265, 2033768241726140340, 2357993866847176456, 10371790308786339310, 14923215258721532024, 8361871182414698912, 152414655424500254, 6116140297433762020, 14908605615765202220, 13839274603658440307, 14460613271681983006, 12662562934486420232, 4029768601146280266, 16591604152262829551, 11273810169601777979, 15594130096685869249, 13446562787215961672, 16912045453461820484, 9951512474342971126, 16548724062201830608, 17356153174129181877, 7371556619899316339, 14036161945222248528, 15066167348301056148, 15280583912126759472, 9051678615532981735, 14781014271140746498, 5397525841723781667, 18182928270957723325, 11597496649915529769, 17860503568456363117]
    [111695836537774374, 83029106370850252047, 74127819032565374056, 78579033379506612516, 74977876205499314410, 9229118831394586647, 75425362475772503562, 14319664620735144332, 83536486255468710545, 6167261022296659871, 5480046277516497032, 6903568271898695730, 15511263045912535671, 79816787604588624304, 85106269603691514547, 14965013133135364312, 80567432792407444211, 75757293610554839644, 1200397699997723566, 5553081626027853419, 6723774509196793016, 83471832236171812158, 74279888334854677472, 6282302270651460643, 73986021386600460637, 78573903538560632878, 305821772856062921, 89549630797357258066, 88480610808564876642, 9928452922161442291, 11123507116583991416, 75468554749768690713, 2266781389764192383, 88768118308983671501, 84631408437916352408, 15183137971745415592, 6211846185177281896, 85255561844118720194, 78993993017085386278, 832721876688259792, 5086357666466693973, 1734137655385921963, 6547611847284025502, 75632424443010491512, 89679021908406360102, 6172911451429079176, 75234197654973893210, 2246553328086507021, 83860874005373335233, 15224056024444876704, 10177161697664682214, 6482365820742707578, 6173891367135145316, 88386613718445994646, 79471077613122938555, 80142596969665651268, 74376298418437043077, 15470545468050516496, 15664882680231511964, 13939285609640529261, 80298044470544046400, 1777617281350732397, 78558387176348216294, 5101515404308794721] = true := by decide +kernel

theorem ok_305_610_915_2281_32 : ok ⟨.xor, [305, 610, 915], 2281⟩ 32 [264627732, 999574892, 333156788, 1]
    [349164685, 2679562925, 3360530121, 2974469843, 1337693951, 3016351690, 2407122891, 3535399113, 3021859030, 4054405256, 157078139, 2341253114, 2284585324, 530112127, 201396798, 1598347258, 2094054391, 2814121405, 4154933041, 3785042342, 482645021, 3328392418, 1334937469, 2548498967, 3963169634, 1619691262, 2239205804, 3325730038, 532880926, 3430342094, 4192680083, 925149862, 2185944199]
    [4925675106, 8261072, 832556527, 4987032957, 4575901115, 4840893586, 1346964449, 5013278060, 1048522409, 80684681, 382984356, 4637054360, 392918359, 5340698952, 5313450186, 1911514045, 1318104239, 6152380615, 4407321075, 5904482876, 6236515356, 5144345001, 75284526, 4341503620, 6001201435, 4691228574, 211883346, 6325069384, 672663878, 955862944, 5244621993, 1151237478] = true := by decide +kernel

theorem ok_305_610_915_2281_64 : ok ⟨.xor, [305, 610, 915], 2281⟩ 64 [1132561780, 362691, 1476005494, 1]
    [12434173736384803900, 15378721511824686637, 1445908835772156581, 15050235801356380116, 14597573448123334013, 16276692547065843488, 8771948737678192557, 7247213256376239980, 5970532078858050309, 12808378698775250301, 2255644216370841869, 2752134993681940033, 15609772988378198274, 17103761474378706272, 11384895338860772767, 7800081647390504957, 12428312507526999094, 338191162563945938, 18142702725201177061, 6704062796526047201, 1630701342324802960, 13986551267730612698, 1176507917090126329, 4629080475678081570, 4083804034964724670, 5806971169406168057, 17803719767861065869, 12161509276320690868, 5491831461654226162, 12954915395273248954, 9617920331110622923, 4173565576946552677, 11903237351491705381, 13854449477910402392, 9728678590476822423, 8375972801689152380, 1241031436329486269, 9178388244013018979, 8803283678976396007, 1507929274192752457, 1405932840814604288, 3637945837515929070, 873046880565866027, 2598523035130117413, 8736057372180596659, 4392395751228141499, 6161436553557728044, 13186909901609541117, 13337128736724694844, 4111241867452146934, 11123518774883014886, 8380891432130765416, 16784381986166972888, 12449804159271236243, 12673554676630445641, 9550889977742833581, 7785400320060000847, 9195183869605590802, 7577531400225244337, 11951894152859702825, 7836555888257654892, 10236466327089101796, 4753287956570977023, 18421223343763442042, 3162489975856929603, 5198919553353805272, 11692872468896715320, 7268905480348444563, 764825098297426153]
    [297591690807250034847, 2631868275253747090, 295415602786662002618, 301324890879152021010, 4711896526167748223, 65393575337976033, 2220420880093394804, 300641874983967899437, 303758260165400697810, 7333268792492224577, 2257737425779059506, 3038349455958106461, 300198041417081639035, 295651677165435804834, 297266803142099489844, 6249876916011483042, 4687324953122857705, 303455514721230163622, 296773861762659952686, 303392044494177511623, 301696797945985733251, 302456672916255440263, 301907153686464282518, 4354616368486168499, 4081875962299409035, 705371722724446887, 296554435220803928908, 120750988852739994, 703936343561479946, 3536171034993904463, 8800075733350819200, 3318379910654577696, 3427158184046442589, 5316127769012845829, 753437993454518273, 699824551499074970, 4618878533050437951, 1835420611706105663, 3426458523041852720, 296787839738682339289, 55400546466883541, 302087241164907252879, 295338519119761819332, 298061540549460657792, 124917021130038004, 300645307624142197666, 6011937602501059128, 8800561076218667020, 112989171093696625, 303669868450441770491, 299487664367934647155, 3352853870981578393, 1933333717526168171, 302582549118447915897, 296399695385696212408, 303759002893866417026, 8337788639069289287, 303528497817147479358, 6508045339081108598, 301332644948292566777, 295515399178216186997, 303255661152448930204, 564080825883725771, 296957554751154755177] = true := by decide +kernel

theorem ok_576_871_1461_3217_32 : ok ⟨.xor, [576, 871, 1461], 3217⟩ 32 [75308923, 59230445, 1171105571, 1]
    [1932242075, 2452044489, 3003224151, 1073712921, 4017428136, 3309621704, 2414088315, 3325757852, 3093947610, 2004819571, 1785630618, 3091740475, 1983304377, 175443103, 1236565817, 1735045486, 2516326251, 1946550477, 2321758646, 29092934, 1844857448, 462040674, 185233815, 4227000203, 3638818782, 3269447231, 3796291541, 1694469427, 370387717, 70737687, 4145466690, 29157933, 622134546]
    [5628982326, 6419452388, 138064644, 1742808120, 4313013265, 5098786287, 263107088, 5637620604, 5238767940, 128830660, 482701016, 55648903, 4789725997, 5036878025, 5441446205, 5971148321, 527265254, 1694020742, 5120131705, 524266046, 1005669652, 4924298722, 2112693809, 4639581384, 58713114, 175284457, 898794215, 1473769581, 1531971751, 6315058719, 1015941318, 2087201394] = true := by decide +kernel

theorem ok_576_871_1461_3217_64 : ok ⟨.xor, [576, 871, 1461], 3217⟩ 64 [438653280, 365041887, 524136805, 1]
    [13776534823970017429, 3411655018138234760, 15921954476550944866, 9988531690633379826, 7122792681939129565, 17665068824261667097, 5540546230299079176, 11374441780622732684, 10884775838370990912, 17797611129285731110, 13546174834964166022, 3173031394363787834, 10656874635176819, 6165131076647781871, 7855095404972439474, 5563386731811832772, 12354862560889999029, 14334505936970403756, 11695538462003371284, 426975401287535075, 6751848662314279053, 7630027048809771828, 13704422238147479281, 13493721527985403795, 2628498422507900262, 3709176512278263465, 248142092688472370, 15141082772181465850, 16459793232454067548, 11781735401559460589, 366758817829086677, 10228970979157582077, 4027638208156876345, 3946406527423021340, 7686195676508993315, 8204847499885793493, 16713488122466746495, 10351812654295885399, 8990503327521013980, 16310132849882069635, 5302270170851736821, 12702795413184847743, 6412327017550763868, 14767893573214424440, 8616158567063773918, 14459379716512700643, 16057098674259753882, 15482945937910643575, 15687501470807277524, 13043439732436473792, 13152453630312851042, 5683106147638796594, 1614867779024778512, 6639204864640242093, 15711482965713000133, 2292171934417674515, 11076366869310045731, 17780728515768770409, 11447217399770976060, 4349851912032441902, 13190288235737414529, 8833032205502785355, 4451181689170280383, 7151093579255839854, 638709158641537169, 2909397946227459956, 115969250193877348]
    [8431435230323738448, 6960743034254257197, 8649499273281205168, 82131045910206585648, 8055532264473747731, 2452188076011976961, 74222987283189550430, 303903434886550784, 76359031091885490791, 3371513295305443353, 80929380861557918805, 5578860247095397551, 82516619616451802864, 2541033703213075834, 6860172660056673921, 76943924235531579078, 80907930148144148009, 77943920516192340274, 81674119104572567126, 8347996673648632053, 74044655649667065939, 76840542186287997333, 77510352048352925027, 3654333735043197730, 3086866707408893746, 2541712831643796920, 7395953084780013318, 81187710560893707403, 81310365344211310982, 1390407938050194629, 4714614106787154321, 79738041456465265810, 4428404917278921180, 77597846725779827221, 78427509407751547069, 80479162668496234336, 4563403495229507589, 77471968990636385987, 5393652336024387549, 3315788440917857332, 80415762813353619183, 77502755346293104531, 77569836930388710757, 80592502330242939442, 6378303162432343858, 1895962263083878774, 82867143235939871102, 1348081723569917623, 74040173387111360507, 546083983485363218, 76857839236858648244, 76226863716196333901, 2806598346158778561, 1401726110922298880, 79377808585416473750, 74200246592092668749, 3877772400573881428, 8552905119237106179, 17594577706573604, 79510052092677293095, 74115600504434934396, 76921088233826696596, 2898033196719052659, 6861826465589356842] = true := by decide +kernel

theorem ok_1419_1736_2053_4423_32 : ok ⟨.xor, [1419, 1736, 2053], 4423⟩ 32 [1609510998, 1072687064, 638857111, 1]
    [446754815, 2992240946, 2960420472, 1045456959, 2114647765, 1772983211, 146295828, 2910464025, 3891691601, 1503817534, 2478206487, 4094370289, 2521830387, 2478848307, 2176108292, 1126302069, 2819434234, 4166641882, 3157475440, 95833161, 2683287615, 1394512363, 1580343262, 547283674, 661788528, 3854393249, 3979191167, 3170052722, 457036624, 3249722297, 3632456970, 1585050325]
    [2192715270, 310817839, 1053190100, 1695894180, 626897804, 2223028362, 491257359, 2772204581, 4135449807, 4134643592, 3629076681, 531471597, 2949784772, 2641644307, 1759380949, 3595045816, 3464321397, 24314356, 2187787637, 924087567, 2735261783, 437415297, 2668003478, 2582790426, 1323993158, 2853212414, 3099837271, 2740685866, 3169244198, 2975673624, 151567577, 3027745736] = true := by decide +kernel

theorem ok_1419_1736_2053_4423_64 : ok ⟨.xor, [1419, 1736, 2053], 4423⟩ 64 [1704667034, 657944606, 1472514689, 1]
    [2333349121897016856, 5592929052997217901, 11408846141793442766, 17573376018382799555, 9699725281178870040, 5320617918273915108, 11941061884353902929, 2039958998097009289, 6972221752321348800, 8258641418533561896, 7828491970297868972, 17646480908527684919, 16197005119437903060, 1553105902033043992, 4701900267234286244, 11071498095358021427, 136415955004552046, 13459629980173416167, 1716209457394682835, 15868475584821509922, 11168873809666844256, 17167050799111902533, 5792872871900416208, 2965730636195210379, 5258208816458057291, 9149670342998449536, 6126054397687898863, 15633719146653499998, 6591693432315115216, 204472520937474472, 14890246374652602488, 9106353719108681213, 11625580055234415239, 14500959460191195455, 1605839844895988717, 16276372427640628401, 10051578023334587949, 12816518420669420097, 2750116137378719840, 10338808605714419866, 15424954546499142625, 6237479411472514447, 13585843610334139077, 1021476984775032440, 9352122060739328745, 16614178106648414657, 12401605081973350863, 9390982679458512474, 6153337239172107272, 5532193479981124988, 11993751180490278221, 12701805115864700487, 9811660649403492973, 4296796791127710455, 12993668281675798059, 11040380513249347410, 8057056480976045416, 2883574684258752438, 6462068731379793954, 10803305883689086095, 7870330619239175000, 4370421468936689434, 7415311732498289345, 1283671545737690370]
    [7339430728791948302, 12994943084005642091, 16100120454475668355, 16269254256880029020, 15119034808192831905, 15697321990744249496, 13338008300354001860, 17583222228305172134, 9541990085598663062, 8233721754562897393, 2258555301496623604, 10871134246319976964, 16368868267055731764, 17404973225171735790, 16775591085975573426, 4985085096124402777, 13330134822650174547, 5881637419315976125, 18233317089172338964, 3229999725109584481, 16894332054786111544, 11125762282225133481, 7044697536075818230, 1253247829581931124, 14246120599565368931, 12987294227024921451, 4879792151250519230, 15291690373612557735, 1766019464708575575, 16738958735242142488, 11508219979088901302, 7077823617388150332, 14659504827282193523, 13287032882040943395, 9024049407655082143, 4152760691443232787, 11129322371891393183, 6711919183958304935, 16315602598583945039, 12046652504112842539, 10900938378601679087, 5451244233281972856, 1363146544586948982, 5203315697926341175, 5304242281959899036, 2098634121780516167, 17168774863562569437, 7287957482924128209, 1726273071273938714, 15899242385528763480, 10716110977216708411, 14973188186558082863, 9701861267886338662, 7008744359643652600, 15308058854299235514, 10560596882930333634, 14019785170207131653, 16272872360314353086, 13193979067993395700, 16908420623673367277, 9131210192563237572, 3435299623348852078, 4550575662213736319, 18285186627416884584] = true := by decide +kernel

theorem ok_471_2032_4064_9689_32 : ok ⟨.xor, [471, 2032, 4064], 9689⟩ 32 [120162518, 693766409, 1004450162, 1]
    [4206016491, 1033194266, 1130266431, 4235973326, 1030148067, 1147712012, 3203007371, 252437663, 470608448, 1683820417, 1994148181, 3229471587, 941605549, 32630793, 2181914866, 841916946, 786809636, 3994367655, 2098630324, 67884719, 3411255492, 1181737342, 1489534605, 2822928144, 3218208435, 2272460755, 101904055, 2942254169, 2670049920, 3026483684, 2607604768, 4215290486, 1464663239, 3524891769, 2434683639, 285209944, 3686033281]
    [2245201024, 47793673, 370104033, 2853835642, 69142122708, 3048141367, 2198399896, 402913276, 2993551794, 2823687766, 687228720, 70886977511, 71645639479, 689359806, 3167557940, 69713754110, 810729998, 71541145550, 71319073788, 71609264877, 174530730, 7091609, 69122688710, 2174140308, 71465114374, 661019785, 195479919, 68843721523, 69774486800, 653788692, 396072007, 70890990994] = true := by decide +kernel

theorem ok_471_2032_4064_9689_64 : ok ⟨.xor, [471, 2032, 4064], 9689⟩ 64 [1377217365, 1241616239, 1689757129, 1]
    [3921177472681501545, 17092595054905353773, 10941164845385699442, 1855015885646001070, 15693424827554115336, 5193604445629059890, 11854414995569435260, 16170091869604478098, 2970639618133519888, 15667026595480514810, 4126709790655180853, 4492915494754421992, 6463106639925755185, 4701819438643269986, 12832512570259429806, 5061065958292322086, 7786295610528652056, 13298430198362957994, 2301411331151031547, 4935796345544083851, 7673523744131362099, 13698064969174554983, 716439683423280515, 6769055948964030045, 15230243917353829699, 18093922602698966454, 3022308915871722690, 11775587454140481086, 13489202560594987738, 6201332260307387214, 15471392311729428450, 5825123670757243853, 11981645847566175468, 14409629378389246302, 2665863151741141095, 6594434377737665228, 8616235030431096622, 2955192581212254123, 12955266086912591853, 18175973912830746060, 9948323470164698934, 2734624813256117556, 15305765570519646072, 1850591104409457013, 3738997672790919487, 9113061391542239494, 13172414585305059798, 5933084329478097487, 10793554067861832169, 9611897108211264716, 16506184671589275084, 13081654619910359989, 193224260095831424, 6932852605574301827, 6594101450151101274, 5092746488522066976, 15717256656470664529, 5219977133124866349, 570106328501895837, 9059277699989805118, 14536807742526187553, 9944004320111813996, 12064433071211727729, 498840115835696321]
    [11530298887298967689, 10500495743021638615, 1441114587181669773, 6799415837061158519, 3503281491118747178, 10691089361294239872, 287438688995995787, 13350272529675521479, 7435348119388573232, 14262845383208810239, 14456357395894612893, 8171144238227681053, 1479594066954038800, 12059175352664225096, 5248387668716042453, 14899942719879772176, 7971983122703329500, 10875511652376796660, 14380525247458466997, 9443113351715763614, 7680314063111744276, 1001652667172871072, 4600541186732161388, 1991619002036596609, 15284965491697672486, 8095122541930226358, 4210624186059437395, 3713973829966113011, 7543108678221840718, 4896842236889574123, 4767874092191425358, 4537553569863642065, 4119606728095601536, 12622729964792594923, 15569026194352935786, 4633004938093259, 6543603631514963464, 892406366521402820, 10729709398126942171, 1498988357803089568, 1634462764479549995, 15087345515966509085, 10796389806091558558, 9591859656948395356, 10714264916145475972, 5374198068920294731, 6796195112458056328, 6265651266406189390, 7337945345562036187, 9862041060122474963, 3073423561307599335, 14736391717382998790, 6565479587637217431, 6771594784012314108, 12556560414836671471, 12292027645713729789, 2520022256127272142, 13858309076672803005, 16727036713633881333, 3684624108279089925, 14375820639746874117, 5595013959958165099, 2451185845219777851, 4971814919339183926] = true := by decide +kernel

theorem ok_3860_7083_11580_19937_32 : ok ⟨.xor, [3860, 7083, 11580], 19937⟩ 32 [511869007, 7600745, 1993627869, 1]
    [3428540334, 1861612998, 3052068792, 2071903419, 4293288882, 2477018316, 2479976208, 3441545226, 1240866051, 477523262, 692031186, 3325578209, 2190429505, 1340610845, 790096938, 643871155, 4172025466, 2717552629, 2985540553, 2434953151, 3375730546, 2362425497, 824342043, 2954692527, 3272994690, 3013970235, 4044303450, 1778473325, 362588163, 1709862285, 41371469, 1307453363, 945057621]
    [5278466538, 5207722874, 1714435143, 2112745076, 5810757441, 5665254344, 800747282, 4934116200, 6364954670, 5522538321, 5667469111, 5118643075, 4558456704, 259193866, 5729172128, 1978748526, 5331034235, 1712857295, 65462162, 2060820357, 357834004, 974672138, 5980420586, 4756292082, 5924289405, 6090583281, 1196706050, 4434903970, 4398931449, 5863433640, 1141457678, 159241570] = true := by decide +kernel

theorem ok_3860_7083_11580_19937_64 : ok ⟨.xor, [3860, 7083, 11580], 19937⟩ 64 [466667923, 1866967078, 1999737575, 1]
    [5596678085036341969, 6927226443645343174, 8697696361858868133, 296808552892944340, 17690906841618446686, 1294197563777665178, 14325351324240066667, 15988207865434132876, 10392583999996607560, 733868140118612029, 6846195867173036567, 16304490396065855375, 12492789842909278375, 3371683895213277635, 17918631936535634758, 3847366639462370107, 8987104057255120540, 4734359816796708311, 10842493706790072746, 10710591671979007334, 5384707678519004580, 17286173416932432285, 4868459271332373777, 8422935893168125327, 17374294006029948799, 12247586206616786676, 5797998772747235188, 17995046445150635527, 2745261826089485097, 2947207884006783102, 1659694125297672358, 8504469449185963368, 12569151843119677954, 9611853709045701528, 10083338731068389907, 13691648598181208223, 4862433012897152340, 14634965072610761532, 11577479801473171724, 6460621278954293164, 16629555435890100496, 6618622602649902051, 15868666106762240282, 13740911635295148336, 1075182005958924683, 4319161695162460027, 13624347678786796715, 7047228720306071204, 4443149231177704549, 13433536112484261130, 1720877814480108522, 6809742726307378983, 15054607077777261662, 14210592686578820661, 83394954184865876, 2839409258787803552, 3219277005518457840, 9830157920284900426, 5685352849356951783, 2864804388947839961, 1720547042196650688, 18220021447336993, 625927932465624438, 5118546735754949265, 4752534578036116769, 18383875036080179070]
    [43457796460142485681, 37289839731708941267, 7311563230759609096, 44333218712671857524, 8792803551162260583, 3219436087552600134, 119538482468722662, 7596843927133871882, 41669137716297861524, 7014640759343190722, 555092131293995016, 45572585892466632428, 2780560972848681837, 41777793492501985442, 39325296548677622883, 3331736196669982004, 38934643021791359808, 38953708293160324872, 42406959593151541681, 6499318391967078421, 4409367836430810344, 44094182669475014816, 1399654043982869765, 39474552331756258708, 8313513232601122175, 39799805048370166153, 39185468669258958203, 45833230060237920605, 9022056997770275682, 44626313918232843426, 4395327907532326960, 6528018424353615934, 42248341547575960198, 41045972487485780741, 6309283072571947005, 2075238868312757813, 42945425486305898173, 40424020125564482436, 39680833990018852007, 40034199029797262369, 39742569739108090082, 6273248375886613465, 2708475330541094716, 39529675764101550390, 40687294656726310012, 40335101623371744161, 39473927077461088867, 5403781206354208822, 44374488203054909190, 2550504925251360907, 43014284680978551490, 4651237139099902654, 8090852319759641384, 6642235961592226729, 3834486975194970654, 4098038054904944208, 37393737530969664089, 2372960963251392513, 41958573248569738756, 8569907048133691387, 7488760570771403088, 5695275885933858898, 8326630780420752511, 8952392388515354728] = true := by decide +kernel

end Trng.LagFibSeeded
