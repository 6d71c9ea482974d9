import Verif.Proofs.PolyBound

/-! Written by tools/acklam.py: the polynomials of inv_Phi_approx with integer coefficients, and chains of intervals for the
logarithm of the derivative of their error, all checked here. -/
namespace Trng.Acklam
open PolyBound

/-- numerator and denominator of the central region, times 10^15 -/
def aP : List Int := [2506628277459239, -30664798066147160, 138357751867269000, -275928510446968700, 220946098424520500, -39696830286653760]
def bP : List Int := [1000000000000000, -13280681552885720, 66801311887719720, -155698979859886600, 161585836858040900, -54476098798224060]
/-- numerator (with the sign changed) and denominator of the outer regions, times 10^18 -/
def cP : List Int := [-2938163982698783000, -4374664141464968000, 2549732539343734000, 2400758277161838000, 322396458041136500, 7784894002430293]
def dP : List Int := [1000000000000000000, 3754408661907416000, 2445134137142996000, 322467129070039800, 7784695709041462]

/-- the derivative of `q a(q²)/b(q²)` is `V(q²)/b(q²)²` -/
def vP : List Int := padd (pmul aP bP) (pmul [0, 2] (psub (pmul (pder aP) bP) (pmul aP (pder bP))))
def b3P : List Int := pmul (pmul bP bP) bP
def numC : List Int := psub (psub (psc 2 (pmul (pder vP) b3P)) (psc 4 (pmul (pmul (pder bP) (pmul bP bP)) vP))) (pmul aP (pmul vP vP))
def denC : List Int := psc 2 (pmul vP b3P)
/-- the derivative of `c/d` is `W/d²` -/
def wP : List Int := psub (pmul (pder cP) dP) (pmul cP (pder dP))
def d3P : List Int := pmul (pmul dP dP) dP
def numT : List Int := padd (pmul [0, 1] (psub (psub (pmul (pder wP) d3P) (psc 2 (pmul (pmul (pder dP) (pmul dP dP)) wP))) (pmul cP (pmul wP wP))))
  (pmul [-1, 0, 1] (pmul wP d3P))
def denT : List Int := padd (pmul [0, 1] (pmul wP d3P)) [0, 0, 0, 0, 0, 0, 0, 0, 0, 0, 0, 0, 0, 0, 0, 0, 0, 0, 0, 0, 0, 0, 0]

def numCL : List Int := [-6849548677821083745717763490209497268919000000000000000000000000000000, 1937357815525678295374254872955141276631169395593370126640000000000000000, -182552888980968986872553362312851452655335420519729274806199644233076209600, 9058889405176513650494383543702722612383624610725699030143243698360498633600, -283917143998774717203030911465377247964759709497619404147865583654140294414400, 6183626578643791338457520852613827346857557346271247947870444477412067063848000, -99143847935753516294359441702790557975008817309151602120463621270956225045358400, 1215013776576335605723296500213597318004900240727840188523919467162506713001203200, -11676346858567508765487773809899813664372227609521534574697181459430310894871150000, 89568620339653064403838179655130811844642572200215453068857150062761392497192924000, -555183719492700275006879340288761380675645780149565246585151332687435310208023420400, 2803087384233544544031279428231108312257248595919524641541912891707270917562520440000, -11581404619573330879947927881980875356663703973082005603552648623297106037804361144000, 39221066175881223908702019134077748800924888736305519200654910608724669705901839640000, -108741405577309087969310745215440266849433778393412588016486194229371014075601632440000, 245822639650009599512435104051931448488152142815695597401456172082341096017165682048000, -449843879225883100965305328825670901439085074797282497198327902896813332482130718080000, 659122235153099647849637612217931880992815427477806132243520954385874103520572832960000, -761354734385445753689724198867393550094799084020631837631117556947770869505600264800000, 678568825373937455578175922357100032161824773687559004402281640651901340501715704000000, -453176688644836317447818461230290593283696003424945415482990262644602239147596254720000, 218116248027043340844761932296487232297094808356022949014985104805826662065966588800000, -72148202817209311766923381376113711421263048821360068116876470120950419557226876800000, 15750365391062446535888785444349741039080603115145095492184877809453798048465312000000, -2270647762941446921471505714970297049881270548392539022586368979246985087954944000000, 185643389607939906285551903988227630366277798693290112899020375450897360001433600000]
def denCL : List Int := [5013256554918478000000000000000000000000000000000000000000000000000000000000, -317147716094461454468680500668320000000000000000000000000000000000000000000000, 9528565878673615769446803651104000000000000000000000000000000000000000000000000, -180860046731070259198240667518981176095587951878582420012934912000000000000000000, 2433630266989534042979672620583968616764995096848045647127435058114500067128320000, -24693580618351753822955046439884234793154724292958145842696488301344709923973120000, 196215761175378284135109683235545342062852662560444263032999978821274386729431040000, -1251634271032413809133540928496162005564645894649545033707669158535684112385715200000, 6518576730253240855468872881382434683617574030530730731247408790361884841262842880000, -28041565900215638269954020866799256727155025405400246128916968566537867735839083520000, 100418645589872054186762225777108976675429048196197497033809317987368350885433518080000, -300817528580544545773260633997502835140302311152701898237121249186061407940763258880000, 755678566744696933295696899343994904130023582996509942709479115080515222095882470400000, -1592485613285915786761953603321521789916453279363065155906348885915603081721169268480000, 2810902064042834825908990812612567196309959801590168231309721322463977589506381998080000, -4141755135438129491569621320664424855289923852220076646320231653493051097831505632000000, 5068318915596910696673624662867019139950626376602953683101111573141200556729720713920000, -5115969450915702794416339776356407305301645795517605070987036599615526468920759619200000, 4224415644823019719327257042517013244515994779671727862193236522221579452591485324800000, -2826484210267197979860222066613212642311781691396440309048387550678475253571553398400000, 1516371494266381483126017011770444543174949492956830823351317546149058629087279318080000, -644237029790501678389585406358009726605227848981462611839474289134476660490137830400000, 212533596366173082726240542614952941113036930115877526640267187704126369996831104000000, -52141951757260554217117716253708540770601539727147658752549037869869013814065824000000, 8552244356868102184604972816753610890639768446708571954892033482722732718614368000000, -699213527116011631679622266958073133975192333453976922900526033827396894928179200000]
def numTL : List Int := [-6656404165283734057884161874728000000000000000000000000000000000000000000000000000000000000, 5229029239725136634260391686942011034378940299758353117671240464681381761472000000000000000, 75399249817539096920357586402250762574302152210986460744753857872329851315840000000000000000, 108767823851958256023802476709022614475595122030000118612407053636786554407721600000000000000, 50476276422376253153819424382288246728639937030014250691892575841304679450610432000000000000, -14628774671343663792508094966596938690666332608666378735248079113191281736553320000000000000, -14032945499153481965519519495776149740349372856270428677394834512078582976692067200000000000, -5552592831400409359501714017528078489876225907440484848059676902957654904178325952000000000, 1783296047800800726410319260055273101440708911651710271925027415883320420561646720000000000, 1305035895630982588465379339601106687784483943137190336051926742483633891809705920000000000, -259926088479345428976972072584845345149873034819579756901187599836067872857377096000000000, -60312984518420203998686523850009662932215787258040439512638197581744670835447482400000000, 11554396810295732412135628490504094121233557782023605920398189229925884000878856608000000, 1092960684654337257147040816317195235806079723127599338637333066686962777293719264000000, -211708258733503691483888365182589189185850010384708591655275222165183096655507672000000, -7144072445564207083151837305257368907397941125067138786014039172304073746212598912000, 1639636640325137930483887341665078671182264633995120489732258560213545793504035680000, 390450646794382623680905764204587895393109171343681745591049180079561687142876000, -4088142025990995229283333705428413011221358406838335287491505870931140562983424000, 18383036864594236287017722327840580905320830704239580728298982962191481908864000, 4128341439333044782461284781022291501969468317284670711273666290740638813591152, -11949120183324219502241277739199572230304486437500991385551488673000823950800, -1456536558028145367340944833605104113130217579996701685817243679261263848260]
def denTL : List Int := [0, 6656404165283734057884161874728000000000000000000000000000000000000000000000000000000000000, 94440459553822665731208764850957444552778548544000000000000000000000000000000000000000000000, 579890238324133816134809251132855614545597690390906638989602304000000000000000000000000000000, 2055037349827976788875321497954468524570028185078853648529699511269514636095488000000000000000, 4740968970088871680971146129214981770697422893871988971427795528188681365104640000000000000000, 7582954783781702767640524456556781448386013389658654839539842838414847427909222400000000000000, 8670231066469022750049078730133118416015008390779056625293355446083625803137702912000000000000, 7201688169835855047896224780262931881367408679820583621951919830145552772742653952000000000000, 4385786333897506405470218500631956231203126038650426467923605889794645818224316953600000000000, 1965993265738259910183305584056296451016045459592847990554677217018622583490540007680000000000, 648108805815063526034350485885976955026501637528064635164499235151095183131290353664000000000, 156470800094610937792415139532156570806134072614895723566212839659675367206835133657600000000, 27520359949050791411891110576364753029169984475729057141574577180316324117831571424192000000, 3503496595882955914075401756266533216224816440470177997008880575177191852454845495712000000, 319864846242695984199865249125458461987858987973672699885906470987746619422872666888000000, 20657887262963728376451113480914304631138964466164269871064241242381422290296897033152000, 924985463519024388304021928874327581989819794272763671358649979792606313589307078144000, 27857340386064965428603069422108192548007132277258607794114373900694591806622368000000, 535628279099144503132071562434888839925909597115255301460128850790370033917402656000, 5921518401834929437502698018255107781569032533311457163892716618046623915284296000, 28590336650258776366528784121862581788330863235674998301559568696120965293088848, 0]
theorem numCL_eq : numCL = numC := by decide +kernel
theorem denCL_eq : denCL = denC := by decide +kernel
theorem numTL_eq : numTL = numT := by decide +kernel
theorem denTL_eq : denTL = denT := by decide +kernel

def piecesC1 : List (Int × Int × Int) := [
    (2000, -1366288, -1306876), (6000, -1306877, -1191567), (14000, -1191568, -974672), (30000, -974673, -593168),
    (62000, -593169, -19083), (104666, -19084, 418774), (189998, 418773, 576913), (240564, 300526, 519478),
    (285511, 39566, 300527), (325463, -195554, 39567), (378732, -458515, -195553), (449757, -644460, -458514),
    (544457, -657331, -535786), (600575, -535787, -301862), (650457, -301863, -26570), (694796, -26571, 239160),
    (753914, 239159, 570605), (806463, 570604, 791543), (911561, 791542, 906741), (973841, 620909, 862721),
    (1010747, 383642, 620910), (1059955, -14892, 383643), (1103695, -411548, -14891), (1142575, -759677, -411547),
    (1177135, -1034430, -759676), (1223215, -1300514, -1034429), (1315375, -1399634, -1267341), (1351783, -1267342, -992197),
    (1384145, -992198, -620717), (1412911, -620718, -202616), (1438480, -202617, 222187), (1461208, 222186, 625271),
    (1491512, 625270, 1167825), (1518448, 1167824, 1616875), (1554362, 1616874, 2092081), (1626190, 2092080, 2345482),
    (1654566, 1853479, 2225718), (1679788, 1292380, 1853480), (1702207, 619288, 1292381), (1722135, -97522, 619289),
    (1739848, -804301, -97521), (1755592, -1463364, -804300), (1776584, -2339829, -1463363), (1795243, -3059593, -2339828),
    (1820121, -3817148, -3059592), (1869877, -4211465, -3817147), (1889533, -3998525, -3357226),
    (1907005, -3357227, -2384238), (1922535, -2384239, -1201567), (1936339, -1201568, 77566), (1948609, 77565, 1359963),
    (1959515, 1359962, 2576632), (1969209, 2576631, 3682406), (1982134, 3682405, 5122743), (1993622, 5122742, 6287433),
    (2008939, 6287432, 7503252), (2025000, 7503251, 8110014)]
def piecesC2 : List (Int × Int × Int) := [
    (2027000, 8110013, 8122625), (2031000, 8099366, 8123499), (2039000, 7842663, 8099367), (2055000, 6371505, 7842664),
    (2076333, 2170928, 6371506), (2095295, -3609454, 2170929), (2112149, -9657343, -3609453), (2134621, -16409337, -9657342),
    (2164583, -17680071, -12902548), (2176419, -12902549, -3945791), (2186939, -3945792, 8400894),
    (2196289, 8400893, 22157040), (2204599, 22157039, 34960533), (2215679, 34960532, 47457059),
    (2225527, 44031789, 48653053), (2231362, 28630483, 44031790), (2236548, 1395552, 28630484),
    (2241157, -37791803, 1395553), (2243887, -69576988, -37791802), (2247527, -124270786, -69576987),
    (2249683, -164479828, -124270785), (2252557, -228712004, -164479827), (2255111, -297521084, -228712003),
    (2257381, -369327587, -297521083), (2259398, -442631137, -369327586), (2261168, -515152548, -442631136),
    (2262643, -582001599, -515152547), (2263381, -617793647, -582001598)]
def piecesT1 : List (Int × Int × Int) := [
    (2729000, 1116075, 1134771), (2733000, 1079348, 1116076), (2741000, 1008494, 1079349), (2757000, 876722, 1008495),
    (2789000, 649459, 876723), (2853000, 315708, 649460), (2938333, 55017, 315709), (3108999, -108649, 55018),
    (3336553, -111275, -52553), (3639958, -52554, 45825), (4246768, 12115, 61546), (4606358, -36798, 12116),
    (5325538, -54139, -36797), (5751718, -38295, 21), (6319958, 20, 46950), (7456438, 45776, 63748), (7905417, 17197, 45777),
    (8504055, -26843, 17198), (9036177, -60151, -26842), (10100421, -86115, -60150), (11046415, -85722, -59171),
    (11607003, -59172, -28108), (12105303, -28109, 4190), (12769703, 4189, 47966), (13360280, 47965, 82386),
    (14147716, 82385, 115146), (15722588, 115145, 128981), (16344759, 100567, 120513), (16897799, 74252, 100568),
    (17389389, 45545, 74253), (18044842, 2001, 45546), (18627466, -39166, 2002), (19145354, -75622, -39165),
    (19605698, -106520, -75621), (20219490, -143589, -106519), (20765082, -170919, -143588), (21492538, -196781, -170918),
    (22947450, -209309, -196780), (23809619, -204475, -178972), (24320533, -178973, -153539), (24774678, -153540, -124942),
    (25380204, -124943, -78935), (25918449, -78936, -31606), (26396889, -31607, 14459), (26822169, 14458, 57679),
    (27200195, 57678, 97201), (27704229, 97200, 150393), (28152259, 150392, 196969), (28550507, 196968, 236808),
    (29081504, 236807, 286052), (29553501, 286051, 324483), (30182830, 324482, 365013), (31021935, 365012, 393637),
    (32140741, 370905, 395557), (32582738, 338027, 370906), (32975624, 295580, 338028), (33324856, 246503, 295581),
    (33635284, 193283, 246504), (33911220, 137947, 193284), (34156496, 82104, 137948), (34483530, -2565, 82105),
    (34774226, -88077, -2564), (35032622, -172552, -88076), (35262307, -254583, -172551), (35466471, -333162, -254582),
    (35647949, -407610, -333161), (35882649, -510486, -407609), (36000000, -564776, -510485)]
def piecesT2 : List (Int × Int × Int) := [
    (36002000, -565718, -564775), (36006000, -567604, -565717), (36014000, -571382, -567603), (36030000, -578966, -571381),
    (36062000, -594241, -578965), (36126000, -625228, -594240), (36254000, -688963, -625227), (36510000, -823602, -688962),
    (36851333, -1018409, -823601), (37154739, -1206735, -1018408), (37424433, -1386511, -1206734),
    (37784025, -1644914, -1386510), (38103662, -1893112, -1644913), (38387783, -2128801, -1893111),
    (38640335, -2350520, -2128800), (38864825, -2557472, -2350519), (39164145, -2848175, -2557471),
    (39454715, -3146886, -2848174), (39600000, -3302458, -3146885)]

theorem chainC1 : chainOk 2000 numCL denCL 10000000 1000000000000 (-700000000000) 700000000000 piecesC1 0 0 0 2025000 (-294741916531) 456250635547 = true := by decide +kernel
theorem chainC2 : chainOk 2000 numCL denCL 10000000 1000000000000 (-6700000000000) 6700000000000 piecesC2 2025000 (-294741916531) 456250635547 2263381 (-6700000000000) 6700000000000 = true := by
  decide +kernel
theorem chainT1 : chainOk 3000 numTL denTL 1000000 1000000000000 (-2200000000000) 2200000000000 piecesT1 2727000 (-200000000000) 200000000000 36000000 (160222533818) 1838911121823 = true := by decide +kernel
theorem chainT2 : chainOk 3000 numTL denTL 1000000 1000000000000 (-7000000000000) 7000000000000 piecesT2 36000000 (160222533818) 1838911121823 39600000 (-7000000000000) 7000000000000 = true := by
  decide +kernel

/-- the polynomials are positive where they are used -/
theorem b_pos : pieceOk 600 bP bP 0 2263381 10000000 1 1 1 = true := by decide +kernel
theorem a_pos : pieceOk 600 aP aP 0 2263381 10000000 1 1 1 = true := by decide +kernel
theorem v_pos : pieceOk 1200 vP vP 0 2263381 10000000 1 1 1 = true := by decide +kernel
theorem w_pos : pieceOk 1200 wP wP 2727000 39600000 1000000 1 1 1 = true := by decide +kernel

end Trng.Acklam
