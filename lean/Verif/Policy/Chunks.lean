import Verif.Policy.Lanes
/-! # Generated by tools/gen_emission.py: the emission curve every 2^14 blocks -/
namespace Nimiq.Policy

def lanes0 : List Nat := [
  1847999995805697, 1840795325737520, 1833618744019254, 1826470141144866, 1819349408035276, 1812256436036534, 1805191116918215, 1798153342872021,
  1791143006509906, 1784160000862327, 1777204219377028, 1770275555916974, 1763373904759064, 1756499160592310, 1749651218516196, 1742829974039306,
  1736035323077576, 1729267161952656, 1722525387390493, 1715809896519541, 1709120586869451, 1702457356369182, 1695820103345986, 1689208726523106,
  1682623125018809, 1676063198344688, 1669528846403919, 1663019969490224, 1656536468285816, 1650078243860161, 1643645197668414, 1637237231549921,
  1630854247726800, 1624496148802189, 1618162837759018, 1611854217958633, 1605570193138945, 1599310667413188, 1593075545268401, 1586864731564055,
  1580678131530540, 1574515650767674, 1568377195243323, 1562262671291839, 1556171985613001, 1550105045270158, 1544061757689002, 1538042030656090,
  1532045772317548, 1526072891177608, 1520123296097198, 1514196896292582, 1508293601333970, 1502413321143925, 1496555965996531, 1490721446515479,
  1484909673672931, 1479120558788098, 1473354013525864, 1467609949895825, 1461888280250276, 1456188917283360, 1450511774029513, 1444856763862360,
  1439223800493148, 1433612797969492, 1428023670674138, 1422456333323704, 1416910700967216, 1411386688984897, 1405884213086852, 1400403189311956,
  1394943534026164, 1389505163921687, 1384087996015488, 1378691947648025, 1373316936481931, 1367962880500996, 1362629698008657, 1357317307626875,
  1352025628294742, 1346754579267774, 1341504080115961, 1336274050722887, 1331064411284440, 1325875082307780, 1320705984609898, 1315557039316556,
  1310428167860843, 1305319291982391, 1300230333725851, 1295161215439604, 1290111859775039, 1285082189684957, 1280072128422541, 1275081599540284,
  1270110526888620, 1265158834614905, 1260226447162131, 1255313289267954, 1250419285963422, 1245544362571810, 1240688444707647, 1235851458275341,
  1231033329468252, 1226233984767510, 1221453350940736, 1216691355041193, 1211947924406479, 1207222986657414, 1202516469697115, 1197828301709706,
  1193158411159351, 1188506726788997, 1183873177619504, 1179257692948419, 1174660202348942, 1170080635668782, 1165518923029171, 1160974994823911,
  1156448781717968, 1151940214646708, 1147449224814805, 1142975743694988, 1138519703027360, 1134081034817997, 1129659671338078, 1125255545122830,
  1120868588970579, 1116498735941551, 1112145919356970, 1107810072798095, 1103491130104952, 1099189025375650, 1094903692965196, 1090635067484489,
  1086383083799370, 1082147677029641, 1077928782548045, 1073726335979207, 1069540273198736, 1065370530332453, 1061217043754928, 1057079750088883,
  1052958586204174, 1048853489216692, 1044764396487554, 1040691245622064, 1036633974468864, 1032592521118648, 1028566823903751, 1024556821396809,
  1020562452409900, 1016583655993706, 1012620371436533, 1008672538263411, 1004740096235032, 1000822985346890, 996921145828815, 993034518143250,
  989163042984785, 985306661279356, 981465314183274, 977638943081948, 973827489589585, 970030895547935, 966249103025330, 962482054316421,
  958729691940390, 954991958640584, 951268797383658, 947560151358522, 943865963975853, 940186178866606, 936520739881623, 932869591090690,
  929232676781622, 925609941459338, 922001329845237, 918406786876236, 914826257703909, 911259687693561, 907707022423584, 904168207684574,
  900643189478382, 897131914017492, 893634327723878, 890150377228577, 886680009370613, 883223171196360, 879779809958571, 876349873115609,
  872933308330727, 869530063471219, 866140086607638, 862763326012925, 859399730161684, 856049247729514, 852711827591948, 849387418824030,
  846075970699114, 842777432688531, 839491754460479, 836218885879380, 832958777005174, 829711378092482, 826476639589902, 823254512139017,
  820044946574068, 816847893920899, 813663305396309, 810491132407236, 807331326550034, 804183839609952, 801048623559978, 797925630560520,
  794814812958345, 791716123286092, 788629514261496, 785554938786433, 782492349946590, 779441701010578, 776402945429035, 773376036834251,
  770360929039036, 767357576036562, 764365931999199, 761385951277968, 758417588401946, 755460798077435, 752515535187328, 749581754790415,
  746659412120707, 743748462586685, 740848861770736, 737960565428410, 735083529487693, 732217710048458, 729363063381749, 726519545929025,
  723687114301541, 720865725279868, 718055335812797, 715255903017214, 712467384177112, 709689736742976, 706922918331198, 704166886723438,
  701421599866007, 698687015868948, 695963093005803, 693249789712766, 690547064588037, 687854876391243, 685173184042683, 682501946623133,
  679841123372577, 677190673689984, 674550557132694, 671920733415654, 669301162410832, 666691804146819, 664092618807720, 661503566733155,
  658924608417240, 656355704508175, 653796815807504, 651247903269617, 648708928001162, 646179851260374, 643660634456537, 641151239149462,
  638651627048665, 636161760013087, 633681600050304, 631211109316043, 628750250113494, 626298984892893, 623857276250879, 621425086929845,
  619002379817485, 616589117946168, 614185264492427, 611790782776186, 609405636260613, 607029788551165, 604663203395247, 602305844681538,
  599957676439575, 597618662839131, 595288768189565, 592967956939545, 590656193676171, 588353443124647, 586059670147841, 583774839745445,
  581498917053664, 579231867344758, 576973656026000, 574724248639872, 572483610863113, 570251708506236, 568028507513080, 565813973960225,
  563608074056495, 561410774142560, 559222040690087, 557041840301693, 554870139710116, 552706905777690, 550552105496199, 548405705985867,
  546267674495214, 544137978400340, 542016585204723, 539903462538352, 537798578157505, 535701899944165, 533613395905490, 531533034173373,
  529460783003985, 527396610777302, 525340485996365, 523292377287196, 521252253398157, 519220083199328, 517195835682177, 515179479959154,
  513170985263074, 511170320946671, 509177456482281, 507192361460953, 505215005592600, 503245358705116, 501283390744044, 499329071772064,
  497382371968636, 495443261629384, 493511711165801, 491587691104816, 489671172087982, 487762124871584, 485860520325810, 483966329434475,
  482079523294368, 480200073115193, 478327950218782, 476463126038732, 474605572119934, 472755260118500, 470912161800760, 469076249043287,
  467247493832156, 465425868262746, 463611344539284, 461803894974248, 460003491988111, 458210108108857, 456423715971672, 454644288318144,
  452871797996413, 451106217960410, 449347521269415, 447595681087825, 445850670684696, 444112463433221, 442381032810404, 440656352396672,
  438938395875230, 437227137032572, 435522549756685, 433824608037559]
theorem check0 : check 14 lanes0 432133285966652 = true := by decide +kernel
theorem curve0 : shrink^[6094848] 1847999995805697 = 432133285966652 :=
  check_curve check0 rfl (by decide +kernel)

def lanes1 : List Nat := [
  432133285966652, 430448557736390, 428770397639805, 427098780070173, 425433679520626, 423775070583726, 422122927951038, 420477226412802,
  418837940857562, 417205046271779, 415578517739492, 413958330441751, 412344459656437, 410736880757741, 409135569215962, 407540500597001,
  405951650561984, 404368994867079, 402792509362618, 401222169993393, 399657952797915, 398099833908059, 396547789548818, 395001796037718,
  393461829784912, 391927867292253, 390399885153375, 388877860052977, 387361768766829, 385851588161073, 384347295192318, 382848866906750,
  381356280440164, 379869513017418, 378388541952223, 376913344646743, 375443898591175, 373980181363581, 372522170629317, 371069844140874,
  369623179737491, 368182155344578, 366746748974220, 365316938723633, 363892702775603, 362474019397965, 361060866943309, 359653223848669,
  358251068635008, 356854379907116, 355463136353193, 354077316744503, 352696899935098, 351321864861513, 349952190542198, 348587856077636,
  347228840649754, 345875123521487, 344526684036800, 343183501620081, 341845555775994, 340512826089027, 339185292223327, 337862933922260,
  336545731008255, 335233663382366, 333926711023970, 332624853990570, 331328072417342, 330036346516947, 328749656579206, 327467982970689,
  326191306134644, 324919606590480, 323652864933579, 322391061834923, 321134178040975, 319882194373147, 318635091727650, 317392851075190,
  316155453460606, 314922880002724, 313695111893923, 312472130399930, 311253916859502, 310040452684137, 308831719357822, 307627698436742,
  306428371548886, 305233720394040, 304043726743237, 302858372438517, 301677639392860, 300501509589648, 299329965082524, 298162987995185,
  297000560520837, 295842664922262, 294689283531368, 293540398748906, 292395993044279, 291256048955165, 290120549087460, 288989476114676,
  287862812778065, 286740541886035, 285622646314103, 284509109004490, 283399912965963, 282295041273477, 281194477068005, 280098203556252,
  279006204010390, 277918461767831, 276834960230908, 275755682866628, 274680613206465, 273609734846259, 272543031445655, 271480486727965,
  270422084480043, 269367808551933, 268317642856622, 267271571369836, 266229578129779, 265191647236861, 264157762853484, 263127909203814,
  262102070573508, 261080231309491, 260062375819697, 259048488572830, 258038554098213, 257032556985496, 256030481884251, 255032313504089,
  254038036614069, 253047636042755, 252061096677768, 251078403465774, 250099541411964, 249124495580105, 248153251092138, 247185793128060,
  246222106925722, 245262177780142, 244305991044095, 243353532127267, 242404786496280, 241459739674469, 240518377241444, 239580684833203,
  238646648141618, 237716252914447, 236789484954880, 235866330121673, 234946774328497, 234030803544047, 233118403791691, 232209561149278,
  231304261748975, 230402491776958, 229504237473313, 228609485131827, 227718221099470, 226830431776681, 225946103616883, 225065223126261,
  224187776863615, 223313751440145, 222443133519298, 221575909816431, 220712067098797, 219851592185174, 218994471945684, 218140693301722,
  217290243225646, 216443108740620, 215599276920304, 214758734888868, 213921469820691, 213087468940045, 212256719521093, 211429208887572,
  210604924412805, 209783853518869, 208965983677388, 208151302408647, 207339797281523, 206531455913424, 205726265970035, 204924215165107,
  204125291260327, 203329482065038, 202536775436151, 201747159277901, 200960621541663, 200177150225824, 199396733375533, 198619359082582,
  197845015485107, 197073690767612, 196305373160567, 195540050940342, 194777712429038, 194018345994300, 193261940049012, 192508483051441,
  191757963504665, 191010369956685, 190265691000076, 189523915271939, 188785031453637, 188049028270682, 187315894492534, 186585618932469,
  185858190447293, 185133597937415, 184411830346233, 183692876660665, 182976725910214, 182263367167273, 181552789546835, 180844982206324,
  180139934345425, 179437635206005, 178738074071765, 178041240268239, 177347123162571, 176655712163378, 175966996720550, 175280966325046,
  174597610508939, 173916918845003, 173238880946682, 172563486467943, 171890725103051, 171220586586421, 170553060692621, 169888137235952,
  169225806070494, 168566057089840, 167908880227016, 167254265454278, 166602202782869, 165952682263297, 165305693984535, 164661228074340,
  164019274698932, 163379824062858, 162742866408855, 162108392017674, 161476391208018, 160846854336310, 160219771796536, 159595134020229,
  158972931476102, 158353154670079, 157735794145350, 157120840481301, 156508284294657, 155898116238538, 155290327002546, 154684907312492,
  154081847930417, 153481139654302, 152882773318140, 152286739791493, 151693029979636, 151101634823243, 150512545298351, 149925752416143,
  149341247222853, 148759020799608, 148179064262362, 147601368761620, 147025925482482, 146452725644300, 145881760500800, 145313021339724,
  144746499482783, 144182186285484, 143620073137121, 143060151460489, 142502412711860, 141946848380814, 141393449990064, 140842209095452,
  140293117285365, 139746166181945, 139201347439029, 138658652743357, 138118073814044, 137579602402518, 137043230292326, 136508949299043,
  135976751270205, 135446628085120, 134918571654695, 134392573921367, 133868626859169, 133346722473238, 132826852799914, 132309009906620,
  131793185891714, 131279372884261, 130767563044133, 130257748561687, 129749921657819, 129244074583614, 128740199620506, 128238289079952,
  127738335303384, 127240330662132, 126744267557207, 126250138419266, 125757935708485, 125267651914462, 124779279556032, 124292811181207,
  123808239367083, 123325556719620, 122844755873876, 122365829493026, 121888770269425, 121413570923702, 120940224204827, 120468722890179,
  119999059785175, 119531227723332, 119065219566031, 118601028202600, 118138646549988, 117678067552813, 117219284183225, 116762289440665,
  116307076351981, 115853637971117, 115401967379223, 114952057684281, 114503902021234, 114057493551749, 113612825464159, 113169890973342,
  112728683320645, 112289195773798, 111851421626734, 111415354199503, 110980986838276, 110548312915099, 110117325827885, 109688019000320,
  109260385881624, 108834419946636, 108410114695670, 107987463654317, 107566460373413, 107147098428918, 106729371421930, 106313272978372,
  105898796749117, 105485936409576, 105074685660299, 104665038225946, 104256987855792, 103850528323455, 103445653426830, 103042356988034,
  102640632853234, 102240474892609, 101841877000231, 101444833093926]
theorem check1 : check 14 lanes1 101049337115327 = true := by decide +kernel
theorem curve1 : shrink^[6094848] 432133285966652 = 101049337115327 :=
  check_curve check1 rfl (by decide +kernel)

def lanes2 : List Nat := [
  101049337115327, 100655383029579, 100262964825445, 99872076515089, 99482712134047, 99094865741009, 98708531417912, 98323703269828,
  97940375424657, 97558542033300, 97178197269455, 96799335329475, 96421950432476, 96046036819870, 95671588755728, 95298600526383,
  94927066440507, 94556980828958, 94188338044632, 93821132462477, 93455358479410, 93091010514132, 92728083007141, 92366570420562,
  92006467238185, 91647767965215, 91290467128350, 90934559275606, 90580038976257, 90226900820730, 89875139420551, 89524749408275,
  89175725437362, 88828062182103, 88481754337596, 88136796619583, 87793183764367, 87450910528923, 87109971690531, 86770362046868,
  86432076415882, 86095109635735, 85759456564721, 85425112081173, 85092071083386, 84760328489595, 84429879237690, 84100718285521,
  83772840610443, 83446241209432, 83120915098956, 82796857314957, 82474062912667, 82152526966640, 81832244570663, 81513210837516,
  81195420899162, 80878869906492, 80563553029367, 80249465456383, 79936602394949, 79624959071133, 79314530729645, 79005312633526,
  78697300064847, 78390488323530, 78084872727950, 77780448614788, 77477211338930, 77175156273337, 76874278808982, 76574574354811,
  76276038337718, 75978666202378, 75682453411283, 75387395444568, 75093487799978, 74800725992845, 74509105555979, 74218622039579,
  73929271011214, 73641048055734, 73353948775201, 73067968788845, 72783103732902, 72499349260680, 72216701042433, 71935154765326,
  71654706133224, 71375350866870, 71097084703620, 70819903397450, 70543802718915, 70268778455075, 69994826409330, 69721942401513,
  69450122267742, 69179361860370, 68909657047903, 68641003714990, 68373397762288, 68106835106457, 67841311680056, 67576823431517,
  67313366325054, 67050936340631, 66789529473901, 66529141736074, 66269769153944, 66011407769791, 65754053641318, 65497702841647,
  65242351459133, 64987995597472, 64734631375443, 64482254926903, 64230862401128, 63980449962032, 63731013788630, 63482550074838,
  63235055029409, 62988524875784, 62742955852284, 62498344211771, 62254686221784, 62011978164388, 61770216336165, 61529397048181,
  61289516625649, 61050571408361, 60812557750300, 60575472019670, 60339310598806, 60104069884185, 59869746286331, 59636336229724,
  59403836152774, 59172242507793, 58941551761021, 58711760392325, 58482864895444, 58254861777590, 58027747559749, 57801518776451,
  57576171975688, 57351703718951, 57128110581137, 56905389150442, 56683536028417, 56462547829858, 56242421182747, 56023152728196,
  55804739120409, 55587177026663, 55370463127271, 55154594115430, 54939566697184, 54725377591493, 54512023530106, 54299501257472,
  54087807530761, 53876939119759, 53666892806897, 53457665387086, 53249253667775, 53041654468849, 52834864622622, 52628880973989,
  52423700379269, 52219319707983, 52015735841530, 51812945673442, 51610946109395, 51409734067106, 51209306476309, 51009660278749,
  50810792428044, 50612699889698, 50415379641058, 50218828671264, 50023043981157, 49828022583291, 49633761501913, 49440257772816,
  49247508443387, 49055510572428, 48864261230307, 48673757498813, 48483996471055, 48294975251574, 48106690956039, 47919140711505,
  47732321656163, 47546230939383, 47360865721611, 47176223174440, 46992300480429, 46809094833001, 46626603436921, 46444823507430,
  46263752270810, 46083386964128, 45903724835249, 45724763142704, 45546499155757, 45368930154321, 45192053428915, 45015866280551,
  44840366020894, 44665549971982, 44491415466309, 44317959846850, 44145180466843, 43973074690038, 43801639889951, 43630873450918,
  43460772767223, 43291335243324, 43122558293822, 42954439343360, 42786975826640, 42620165188363, 42454004883223, 42288492375800,
  42123625140595, 41959400661870, 41795816433778, 41632869960265, 41470558754910, 41308880341042, 41147832251653, 40987412029255,
  40827617226191, 40668445404089, 40509894134205, 40351960997216, 40194643583227, 40037939491803, 39881846331795, 39726361721404,
  39571483288181, 39417208668795, 39263535509208, 39110461464582, 38957984199149, 38806101386318, 38654810708562, 38504109857307,
  38353996533054, 38204468445262, 38055523312282, 37907158861428, 37759372828836, 37612162959466, 37465527007047, 37319462734102,
  37173967911840, 37029040320201, 36884677747781, 36740877991739, 36597638857882, 36454958160542, 36312833722617, 36171263375412,
  36030244958755, 35889776320866, 35749855318376, 35610479816239, 35471647687750, 35333356814505, 35195605086301, 35058390401700,
  34921710666119, 34785563794389, 34649947709069, 34514860340832, 34380299628396, 34246263518521, 34112749965954, 33979756933485,
  33847282391770, 33715324319402, 33583880702868, 33452949536483, 33322528822421, 33192616570583, 33063210798677, 32934309532143,
  32805910804070, 32678012655259, 32550613134117, 32423710296699, 32297302206628, 32171386935078, 32045962560697, 31921027169639,
  31796578855564, 31672615719563, 31549135870085, 31426137422987, 31303618501445, 31181577235943, 31060011764299, 30938920231584,
  30818300790087, 30698151599207, 30578470825758, 30459256643470, 30340507233300, 30222220783258, 30104395488461, 29987029550983,
  29870121179966, 29753668591572, 29637670008855, 29522123661792, 29407027787295, 29292380629223, 29178180438043, 29064425471260,
  28951113993130, 28838244274622, 28725814593510, 28613823234232, 28502268487917, 28391148652432, 28280462032167, 28170206938198,
  28060381688195, 27950984606277, 27842014023217, 27733468276243, 27625345709065, 27517644671889, 27410363521318, 27303500620375,
  27197054338444, 27091023051298, 26985405141006, 26880198995980, 26775403010881, 26671015586660, 26567035130477, 26463460055723,
  26360288781755, 26257519734727, 26155151346300, 26053182054443, 25951610303224, 25850434542781, 25749653229305, 25649264824990,
  25549267798004, 25449660622521, 25350441778629, 25251609752434, 25153163035845, 25055100126679, 24957419528607, 24860119751131,
  24763199309580, 24666656725081, 24570490524414, 24474699240344, 24379281411126, 24284235580839, 24189560299172, 24095254121505,
  24001315608811, 23907743327707, 23814535850399, 23721691754660]
theorem check2 : check 14 lanes2 23629209623787 = true := by decide +kernel
theorem curve2 : shrink^[6094848] 101049337115327 = 23629209623787 :=
  check_curve check2 rfl (by decide +kernel)

def lanes3 : List Nat := [
  23629209623787, 23537088046617, 23445325617541, 23353920936253, 23262872608083, 23172179243752, 23081839459391, 22991851876516,
  22902215122008, 22812927828122, 22723988632456, 22635396177896, 22547149112635, 22459246090116, 22371685769011, 22284466813326,
  22197587892161, 22111047679844, 22024844855882, 21938978104939, 21853446116757, 21768247586231, 21683381213345, 21598845703124,
  21514639765666, 21430762116044, 21347211474470, 21263986566002, 21181086120746, 21098508873742, 21016253564950, 20934318939252,
  20852703746435, 20771406741140, 20690426682857, 20609762335940, 20529412469537, 20449375857598, 20369651278913, 20290237516921,
  20211133359893, 20132337600778, 20053849037211, 19975666471625, 19897788711024, 19820214567074, 19742942856105, 19665972398999,
  19589302021309, 19512930553126, 19436856829123, 19361079688487, 19285597974961, 19210410536785, 19135516226672, 19060913901846,
  18986602423970, 18912580659125, 18838847477831, 18765401754989, 18692242369919, 18619368206296, 18546778152136, 18474471099823,
  18402445946014, 18330701591705, 18259236942155, 18188050906919, 18117142399755, 18046510338705, 17976153645983, 17906071248054,
  17836262075546, 17766725063227, 17697459150046, 17628463279120, 17559736397375, 17491277456654, 17423085412070, 17355159223098,
  17287497853275, 17220100270168, 17152965445367, 17086092354473, 17019479977084, 16953127296779, 16887033301093, 16821196981491,
  16755617333411, 16690293356198, 16625224053046, 16560408431105, 16495845501360, 16431534278651, 16367473781669, 16303663032907,
  16240101058730, 16176786889237, 16113719558330, 16050898103665, 15988321566662, 15925988992488, 15863899430022, 15802051931863,
  15740445554274, 15679079357213, 15617952404291, 15557063762817, 15496412503667, 15435997701413, 15375818434212, 15315873783731,
  15256162835331, 15196684677867, 15137438403793, 15078423109102, 15019637893264, 14961081859289, 14902754113664, 14844653766417,
  14786779930976, 14729131724253, 14671708266607, 14614508681883, 14557532097198, 14500777643196, 14444244453868, 14387931666593,
  14331838422093, 14275963864455, 14220307141090, 14164867402762, 14109643803506, 14054635500745, 13999841654997, 13945261430244,
  13890893993645, 13836738515602, 13782794169804, 13729060133094, 13675535585593, 13622219710532, 13569111694376, 13516210726807,
  13463516000569, 13411026711638, 13358742059058, 13306661245061, 13254783474928, 13203107957078, 13151633902864, 13100360527134,
  13049287047368, 12998412684272, 12947736661534, 12897258205925, 12846976547174, 12796890918051, 12747000554322, 12697304694706,
  12647802580909, 12598493457586, 12549376572371, 12500451175743, 12451716521167, 12403171865038, 12354816466602, 12306649587992,
  12258670494302, 12210878453384, 12163272736011, 12115852615763, 12068617369072, 12021566275167, 11974698616123, 11928013676795,
  11881510744810, 11835189110597, 11789048067346, 11743086910998, 11697304940285, 11651701456525, 11606275763926, 11561027169341,
  11515954982321, 11471058515125, 11426337082698, 11381790002602, 11337416595158, 11293216183269, 11249188092471, 11205331650951,
  11161646189502, 11118131041547, 11074785543099, 11031609032744, 10988600851644, 10945760343617, 10903086854922, 10860579734392,
  10818238333470, 10776062006024, 10734050108532, 10692201999925, 10650517041654, 10608994597637, 10567634034309, 10526434720586,
  10485396027755, 10444517329640, 10403798002475, 10363237424961, 10322834978169, 10282590045590, 10242502013184, 10202570269200,
  10162794204367, 10123173211728, 10083706686714, 10044394027121, 10005234633069, 9966227907049, 9927373253862, 9888670080645,
  9850117796813, 9811715814106, 9773463546564, 9735360410509, 9697405824492, 9659599209410, 9621939988373, 9584427586726,
  9547061432111, 9509840954344, 9472765585466, 9435834759769, 9399047913747, 9362404486071, 9325903917588, 9289545651363,
  9253329132583, 9217253808662, 9181319129099, 9145524545593, 9109869511964, 9074353484148, 9038975920231, 9003736280380,
  8968634026866, 8933668624091, 8898839538532, 8864146238719, 8829588195281, 8795164880923, 8760875770410, 8726720340413,
  8692698069845, 8658808439560, 8625050932434, 8591425033370, 8557930229288, 8524566009079, 8491331863647, 8458227285897,
  8425251770670, 8392404814811, 8359685917095, 8327094578300, 8294630301119, 8262292590165, 8230080952018, 8197994895169,
  8166033930014, 8134197568862, 8102485325939, 8070896717338, 8039431261081, 8008088477023, 7976867886930, 7945769014375,
  7914791384849, 7883934525674, 7853197966005, 7822581236837, 7792083870992, 7761705403131, 7731445369712, 7701303308978,
  7671278761023, 7641371267716, 7611580372674, 7581905621355, 7552346560931, 7522902740385, 7493573710426, 7464359023526,
  7435258233910, 7406270897551, 7377396572108, 7348634817012, 7319985193398, 7291447264077, 7263020593607, 7234704748218,
  7206499295879, 7178403806200, 7150417850450, 7122541001623, 7094772834338, 7067112924898, 7039560851249, 7012116192990,
  6984778531286, 6957547449050, 6930422530746, 6903403362494, 6876489531999, 6849680628609, 6822976243251, 6796375968424,
  6769879398252, 6743486128420, 6717195756227, 6691007880469, 6664922101600, 6638938021548, 6613055243839, 6587273373491,
  6561592017172, 6536010782996, 6510529280599, 6485147121182, 6459863917449, 6434679283584, 6409592835320, 6384604189879,
  6359712965927, 6334918783674, 6310221264779, 6285620032406, 6261114711158, 6236704927100, 6212390307794, 6188170482222,
  6164045080810, 6140013735448, 6116076079413, 6092231747471, 6068480375791, 6044821601941, 6021255064917, 5997780405123,
  5974397264358, 5951105285839, 5927904114153, 5904793395266, 5881772776549, 5858841906892, 5836000436078, 5813248015725,
  5790584298661, 5768008939071, 5745521592459, 5723121915723, 5700809567053, 5678584206015, 5656445493451, 5634393091559,
  5612426663842, 5590545875127, 5568750391537, 5547039880489]
theorem check3 : check 14 lanes3 5525414010715 = true := by decide +kernel
theorem curve3 : shrink^[6094848] 23629209623787 = 5525414010715 :=
  check_curve check3 rfl (by decide +kernel)

def lanes4 : List Nat := [
  5525414010715, 5503872452229, 5482414876323, 5461040955588, 5439750363887, 5418542776346, 5397417869385, 5376375320619,
  5355414808990, 5334536014653, 5313738619021, 5293022304776, 5272386755786, 5251831657192, 5231356695351, 5210961557820,
  5190645933416, 5170409512111, 5150251985162, 5130173044965, 5110172385149, 5090249700532, 5070404687109, 5050637042061,
  5030946463773, 5011332651748, 4991795306778, 4972334130706, 4952948826571, 4933639098586, 4914404652121, 4895245193655,
  4876160430841, 4857150072482, 4838213828496, 4819351409938, 4800562528986, 4781846898933, 4763204234234, 4744634250403,
  4726136664070, 4707711193020, 4689357556055, 4671075473175, 4652864665386, 4634724854819, 4616655764686, 4598657119263,
  4580728643902, 4562870065055, 4545081110219, 4527361507960, 4509710987874, 4492129280667, 4474616118051, 4457171232790,
  4439794358701, 4422485230636, 4405243584473, 4388069156873, 4370961686279, 4353920911396, 4336946572213, 4320038409715,
  4303196165899, 4286419583773, 4269708407361, 4253062381655, 4236481252655, 4219964767376, 4203512673769, 4187124720816,
  4170800658432, 4154540237541, 4138343210025, 4122209328747, 4106138347518, 4090130021111, 4074184105265, 4058300356676,
  4042478532953, 4026718392682, 4011019695389, 3995382201516, 3979805672452, 3964289870535, 3948834559000, 3933439502026,
  3918104464693, 3902829212982, 3887613513869, 3872457135158, 3857359845576, 3842321414752, 3827341613214, 3812420212414,
  3797556984635, 3782751703098, 3768004141896, 3753314075992, 3738681281234, 3724105534332, 3709586612901, 3695124295373,
  3680718361088, 3666368590229, 3652074763832, 3637836663779, 3623654072839, 3609526774577, 3595454553451, 3581437194725,
  3567474484501, 3553566209728, 3539712158195, 3525912118485, 3512165880045, 3498473233103, 3484833968749, 3471247878854,
  3457714756105, 3444234393997, 3430806586867, 3417431129794, 3404107818694, 3390836450273, 3377616821996, 3364448732199,
  3351331979914, 3338266365026, 3325251688121, 3312287750654, 3299374354798, 3286511303502, 3273698400500, 3260935450273,
  3248222258086, 3235558629946, 3222944372608, 3210379293603, 3197863201254, 3185395904474, 3172977213098, 3160606937610,
  3148284889272, 3136010880056, 3123784722667, 3111606230554, 3099475217904, 3087391499581, 3075354891203, 3063365209133,
  3051422270415, 3039525892800, 3027675894777, 3015872095509, 3004114314908, 2992402373560, 2980736092744, 2969115294453,
  2957539801370, 2946009436862, 2934524024992, 2923083390580, 2911687358901, 2900335756147, 2889028409104, 2877765145230,
  2866545792656, 2855370180207, 2844238137354, 2833149494232, 2822104081625, 2811101731010, 2800142274492, 2789225544865,
  2778351375531, 2767519600587, 2756730054723, 2745982573325, 2735276992377, 2724613148542, 2713990879097, 2703410021982,
  2692870415711, 2682371899477, 2671914313072, 2661497496947, 2651121292136, 2640785540327, 2630490083787, 2620234765447,
  2610019428812, 2599843918007, 2589708077755, 2579611753408, 2569554790905, 2559537036788, 2549558338183, 2539618542848,
  2529717499108, 2519855055884, 2510031062519, 2500245369452, 2490497827190, 2480788287001, 2471116600719, 2461482620779,
  2451886200175, 2442327192470, 2432805451810, 2423320832881, 2413873191002, 2404462381991, 2395088262263, 2385750688751,
  2376449518995, 2367184611075, 2357955823603, 2348763015772, 2339606047330, 2330484778510, 2321399070147, 2312348783604,
  2303333780788, 2294353924154, 2285409076659, 2276499101828, 2267623863706, 2258783226850, 2249977056373, 2241205217911,
  2232467577608, 2223764002142, 2215094358704, 2206458515004, 2197856339339, 2189287700323, 2180752467261, 2172250509931,
  2163781698588, 2155345904014, 2146942997494, 2138572850815, 2130235336234, 2121930326554, 2113657695036, 2105417315441,
  2097209062071, 2089032809639, 2080888433404, 2072775809080, 2064694812843, 2056645321482, 2048627212106, 2040640362377,
  2032684650441, 2024759954883, 2016866154788, 2009003129711, 2001170759670, 1993368925152, 1985597507106, 1977856386943,
  1970145446553, 1962464568270, 1954813634852, 1947192529621, 1939601136300, 1932039339018, 1924507022398, 1917004071498,
  1909530371838, 1902085809367, 1894670270505, 1887283642089, 1879925811406, 1872596666195, 1865296094620, 1858023985276,
  1850780227177, 1843564709846, 1836377323152, 1829217957423, 1822086503419, 1814982852339, 1807906895767, 1800858525727,
  1793837634694, 1786844115519, 1779877861502, 1772938766332, 1766026724136, 1759141629452, 1752283377213, 1745451862747,
  1738646981838, 1731868630654, 1725116705756, 1718391104107, 1711691723119, 1705018460540, 1698371214549, 1691749883719,
  1685154367009, 1678584563788, 1672040373800, 1665521697202, 1659028434513, 1652560486669, 1646117754967, 1639700141086,
  1633307547126, 1626939875520, 1620597029125, 1614278911143, 1607985425172, 1601716475180, 1595471965552, 1589251800926,
  1583055886414, 1576884127498, 1570736429991, 1564612700083, 1558512844352, 1552436769691, 1546384383396, 1540355593135,
  1534350306905, 1528368433073, 1522409880353, 1516474557830, 1510562374943, 1504673241464, 1498807067561, 1492963763708,
  1487143240728, 1481345409822, 1475570182519, 1469817470698, 1464087186593, 1458379242728, 1452693552037, 1447030027756,
  1441388583460, 1435769133080, 1430171590867, 1424595871407, 1419041889608, 1413509560746, 1407998800386, 1402509524418,
  1397041649138, 1391595091087, 1386169767158, 1380765594564, 1375382490850, 1370020373870, 1364679161796, 1359358773145,
  1354059126718, 1348780141666, 1343521737431, 1338283833772, 1333066350763, 1327869208794, 1322692328564, 1317535631073,
  1312399037659, 1307282469918, 1302185849785, 1297109099492]
theorem check4 : check 14 lanes4 1292052141572 = true := by decide +kernel
theorem curve4 : shrink^[6094848] 5525414010715 = 1292052141572 :=
  check_curve check4 rfl (by decide +kernel)

def lanes5 : List Nat := [
  1292052141572, 1287014898878, 1281997294523, 1276999251965, 1272020694935, 1267061547454, 1262121733858, 1257201178778,
  1252299807074, 1247417544057, 1242554315179, 1237710046241, 1232884663325, 1228078092785, 1223290261283, 1218521095781,
  1213770523494, 1209038471919, 1204324868882, 1199629642444, 1194952720969, 1190294033082, 1185653507695, 1181031074006,
  1176426661475, 1171840199892, 1167271619190, 1162720849706, 1158187821988, 1153672466873, 1149174715468, 1144694499125,
  1140231749497, 1135786398481, 1131358378259, 1126947621248, 1122554060153, 1118177627930, 1113818257796, 1109475883238,
  1105150437998, 1100841856075, 1096550071715, 1092275019446, 1088016634034, 1083774850486, 1079549604092, 1075340830364,
  1071148465100, 1066972444320, 1062812704313, 1058669181582, 1054541812927, 1050430535355, 1046335286135, 1042256002790,
  1038192623058, 1034145084957, 1030113326699, 1026097286784, 1022096903921, 1018112117073, 1014142865440, 1010189088452,
  1006250725781, 1002327717341, 998420003263, 994527523922, 990650219919, 986788032088, 982940901500, 979108769455,
  975291577449, 971489267299, 967701780952, 963929060620, 960171048735, 956427687947, 952698921147, 948984691406,
  945284942104, 941599616746, 937928659124, 934272013205, 930629623207, 927001433535, 923387388820, 919787433950,
  916201513977, 912629574185, 909071560065, 905527417326, 901997091900, 898480529908, 894977677684, 891488481798,
  888012888990, 884550846244, 881102300725, 877667199775, 874245491054, 870837122309, 867442041536, 864060196936,
  860691536900, 857336010025, 853993565103, 850664151148, 847347717352, 844044213104, 840753588002, 837475791827,
  834210774581, 830958486417, 827718877725, 824491899085, 821277501239, 818075635137, 814886251937, 811709302957,
  808544739741, 805392513981, 802252577588, 799124882647, 796009381433, 792906026415, 789814770231, 786735565718,
  783668365878, 780613123922, 777569793230, 774538327357, 771518680052, 768510805234, 765514657008, 762530189688,
  759557357683, 756596115649, 753646418411, 750708220948, 747781478440, 744866146217, 741962179794, 739069534866,
  736188167296, 733318033121, 730459088488, 727611289872, 724774593774, 721948956908, 719134336154, 716330688576,
  713537971375, 710756141943, 707985157838, 705224976786, 702475556662, 699736855507, 697008831535, 694291443119,
  691584648804, 688888407288, 686202677414, 683527418219, 680862588868, 678208148703, 675564057228, 672930274081,
  670306759083, 667693472196, 665090373556, 662497423436, 659914582264, 657341810643, 654779069310, 652226319158,
  649683521241, 647150636751, 644627627049, 642114453617, 639611078135, 637117462385, 634633568329, 632159358055,
  629694793803, 627239838006, 624794453154, 622358601960, 619932247255, 617515352007, 615107879343, 612709792527,
  610321054956, 607941630202, 605571481940, 603210574015, 600858870398, 598516335215, 596182932707, 593858627266,
  591543383441, 589237165899, 586939939447, 584651669040, 582372319754, 580101856800, 577840245542, 575587451460,
  573343440204, 571108177517, 568881629298, 566663761588, 564454540507, 562253932359, 560061903579, 557878420714,
  555703450434, 553536959562, 551378915033, 549229283918, 547088033427, 544955130886, 542830543743, 540714239576,
  538606186109, 536506351159, 534414702697, 532331208779, 530255837655, 528188557636, 526129337180, 524078144870,
  522034949393, 519999719581, 517972424381, 515953032826, 513941514165, 511937837674, 509941972777, 507953889014,
  505973556064, 504000943699, 502036021799, 500078760427, 498129129691, 496187099854, 494252641265, 492325724429,
  490406319919, 488494398487, 486589930906, 484692888148, 482803241255, 480920961403, 479046019863, 477178388027,
  475318037410, 473464939594, 471619066332, 469780389445, 467948880888, 466124512707, 464307257057, 462497086197,
  460693972546, 458897888573, 457108806865, 455326700127, 453551541161, 451783302886, 450021958336, 448267480602,
  446519842936, 444779018665, 443044981219, 441317704155, 439597161109, 437883325820, 436176172138, 434475674015,
  432781805513, 431094540771, 429413854060, 427739719736, 426072112236, 424411006121, 422756376032, 421108196746,
  419466443107, 417831090063, 416202112651, 414579486017, 412963185400, 411353186155, 409749463694, 408151993539,
  406560751354, 404975712828, 403396853792, 401824150140, 400257577872, 398697113110, 397142732009, 395594410862,
  394052126057, 392515854039, 390985571385, 389461254727, 387942880833, 386430426518, 384923868699, 383423184396,
  381928350721, 380439344840, 378956144046, 377478725702, 376007067263, 374541146289, 373080940399, 371626427307,
  370177584821, 368734390839, 367296823342, 365864860391, 364438480132, 363017660799, 361602380717, 360192618289,
  358788352015, 357389560453, 355996222255, 354608316175, 353225821027, 351848715719, 350476979239, 349110590654,
  347749529099, 346393773833, 345043304157, 343698099451, 342358139217, 341023402991, 339693870410, 338369521181,
  337050335085, 335736292026, 334427371935, 333123554844, 331824820858, 330531150151, 329242522988, 327958919709,
  326680320720, 325406706521, 324138057680, 322874354825, 321615578681, 320361710043, 319112729782, 317868618823,
  316629358201, 315394928991, 314165312376, 312940489578, 311720441906, 310505150756, 309294597578, 308088763895,
  306887631318, 305691181515, 304499396222, 303312257256]
theorem check5 : check 14 lanes5 302129746508 = true := by decide +kernel
theorem curve5 : shrink^[6094848] 1292052141572 = 302129746508 :=
  check_curve check5 rfl (by decide +kernel)

def lanes6 : List Nat := [
  302129746508, 300951845936, 299778537565, 298609803488, 297445625885, 296285986968, 295130869063, 293980254530,
  292834125823, 291692465448, 290555255994, 289422480096, 288294120471, 287170159902, 286050581235, 284935367396,
  283824501362, 282717966193, 281615744991, 280517820943, 279424177291, 278334797369, 277249664528, 276168762214,
  275092073938, 274019583290, 272951273874, 271887129391, 270827133628, 269771270397, 268719523580, 267671877134,
  266628315086, 265588821493, 264553380511, 263521976329, 262494593203, 261471215471, 260451827506, 259436413760,
  258424958747, 257417447011, 256413863197, 255414191986, 254418418109, 253426526407, 252438501713, 251454328975,
  250473993155, 249497479305, 248524772521, 247555857967, 246590720848, 245629346451, 244671720092, 243717827164,
  242767653117, 241821183443, 240878403698, 239939299509, 239003856546, 238072060532, 237143897233, 236219352501,
  235298412244, 234381062393, 233467288937, 232557077955, 231650415550, 230747287893, 229847681181, 228951581718,
  228058975814, 227169849845, 226284190251, 225401983516, 224523216190, 223647874843, 222775946126, 221907416753,
  221042273443, 220180503003, 219322092302, 218467028220, 217615297715, 216766887798, 215921785515, 215079977967,
  214241452332, 213406195782, 212574195610, 211745439083, 210919913580, 210097606493, 209278505270, 208462597430,
  207649870508, 206840312104, 206033909881, 205230651519, 204430524757, 203633517401, 202839617294, 202048812297,
  201261090362, 200476439461, 199694847609, 198916302918, 198140793480, 197368307466, 196598833086, 195832358603,
  195068872316, 194308362594, 193550817809, 192796226408, 192044576885, 191295857785, 190550057647, 189807165108,
  189067168822, 188330057527, 187595819948, 186864444884, 186135921199, 185410237753, 184687383461, 183967347332,
  183250118353, 182535685583, 181824038131, 181115165127, 180409055752, 179705699242, 179005084858, 178307201915,
  177612039754, 176919587776, 176229835423, 175542772144, 174858387478, 174176670964, 173497612221, 172821200883,
  172147426615, 171476279149, 170807748241, 170141823674, 169478495318, 168817753036, 168159586734, 167503986374,
  166850941975, 166200443543, 165552481172, 164907044958, 164264125077, 163623711683, 162985795038, 162350365391,
  161717413049, 161086928339, 160458901681, 159833323445, 159210184122, 158589474187, 157971184170, 157355304644,
  156741826188, 156130739477, 155522035164, 154915703957, 154311736617, 153710123927, 153110856699, 152513925789,
  151919322098, 151327036542, 150737060096, 150149383738, 149563998513, 148980895497, 148400065787, 147821500521,
  147245190850, 146671128014, 146099303229, 145529707774, 144962332979, 144397170147, 143834210689, 143273445994,
  142714867523, 142158466746, 141604235164, 141052164342, 140502245827, 139954471239, 139408832228, 138865320449,
  138323927620, 137784645512, 137247465845, 136712380441, 136179381145, 135648459811, 135119608344, 134592818691,
  134068082781, 133545392619, 133024740234, 132506117670, 131989517048, 131474930443, 130962350033, 130451767981,
  129943176501, 129436567825, 128931934238, 128429268017, 127928561528, 127429807089, 126932997113, 126438124022,
  125945180261, 125454158306, 124965050641, 124477849852, 123992548466, 123509139100, 123027614359, 122547966926,
  122070189438, 121594274643, 121120215250, 120648004046, 120177633829, 119709097395, 119242387624, 118777497381,
  118314419573, 117853147138, 117393673022, 116935990240, 116480091777, 116025970722, 115573620095, 115123033034,
  114674202637, 114227122051, 113781784485, 113338183109, 112896311193, 112456161961, 112017728697, 111581004726,
  111145983403, 110712658037, 110281022063, 109851068886, 109422791927, 108996184661, 108571240588, 108147953207,
  107726316054, 107306322734, 106887966798, 106471241888, 106056141629, 105642659682, 105230789752, 104820525566,
  104411860848, 104004789358, 103599304864, 103195401239, 102793072275, 102392311844, 101993113819, 101595472137,
  101199380704, 100804833486, 100411824445, 100020347631, 99630397030, 99241966690, 98855050706, 98469643158,
  98085738205, 97703329926, 97322412524, 96942980156, 96565027079, 96188547501, 95813535678, 95439985879,
  95067892397, 94697249608, 94328051800, 93960293346, 93593968673, 93229072150, 92865598205, 92503541342,
  92142895990, 91783656642, 91425817870, 91069374164, 90714320083, 90360650267, 90008359261, 89657441688,
  89307892252, 88959705559, 88612876301, 88267399237, 87923269044, 87580480476, 87239028334, 86898907378,
  86560112434, 86222638299, 85886479871, 85551632007, 85218089602, 84885847541, 84554900770, 84225244221,
  83896872910, 83569781788, 83243965856, 82919420193, 82596139797, 82274119749, 81953355137, 81633841052,
  81315572667, 80998545094, 80682753473, 80368193015, 80054858915, 79742746373, 79431850643, 79122167008,
  78813690709, 78506417039, 78200341313, 77895458855, 77591765032, 77289255186, 76987924730, 76687769037,
  76388783559, 76090963706, 75794304934, 75498802737, 75204452577, 74911249995, 74619190506, 74328269637,
  74038482955, 73749826069, 73462294530, 73175883987, 72890590040, 72606408346, 72323334571, 72041364381,
  71760493514, 71480717672, 71202032534, 70924433920]
theorem check6 : check 14 lanes6 70647917543 = true := by decide +kernel
theorem curve6 : shrink^[6094848] 302129746508 = 70647917543 :=
  check_curve check6 rfl (by decide +kernel)

def lanes7 : List Nat := [
  70647917543, 70372479199, 70098114710, 69824819857, 69552590473, 69281422383, 69011311535, 68742253720,
  68474244863, 68207280857, 67941357682, 67676471222, 67412617458, 67149792357, 66887991926, 66627212142,
  66367449059, 66108698699, 65850957082, 65594220324, 65338484486, 65083745679, 64830000006, 64577243583,
  64325472564, 64074683109, 63824871359, 63576033585, 63328165918, 63081264587, 62835325829, 62590345921,
  62346321089, 62103247612, 61861121772, 61619939923, 61379698311, 61140393335, 60902021350, 60664578682,
  60428061685, 60192466771, 59957790385, 59724028933, 59491178797, 59259236480, 59028198410, 58798061072,
  58568820931, 58340474560, 58113018392, 57886449000, 57660762926, 57435956702, 57212026941, 56988970172,
  56766783035, 56545462127, 56325004028, 56105405473, 55886663025, 55668773376, 55451733184, 55235539150,
  55020187989, 54805676418, 54592001131, 54379158857, 54167146448, 53955960531, 53745597968, 53536055527,
  53327330054, 53119418307, 52912317118, 52706023326, 52500533817, 52295845453, 52091955074, 51888859588,
  51686555870, 51485040880, 51284311547, 51084364789, 50885197484, 50686806735, 50489189406, 50292342511,
  50096263028, 49900948030, 49706394447, 49512599404, 49319559874, 49127272916, 48935735636, 48744945097,
  48554898378, 48365592565, 48177024794, 47989192185, 47802091826, 47615720965, 47430076645, 47245156089,
  47060956494, 46877475032, 46694708852, 46512655262, 46331311394, 46150674527, 45970741911, 45791510784,
  45612978361, 45435142056, 45257999023, 45081546604, 44905782118, 44730702869, 44556306153, 44382589419,
  44209549903, 44037184996, 43865492092, 43694468553, 43524111726, 43354419143, 43185388069, 43017015981,
  42849300339, 42682238574, 42515828114, 42350066371, 42184950946, 42020479220, 41856648700, 41693456899,
  41530901310, 41368979457, 41207688919, 41047027175, 40886991772, 40727580304, 40568790336, 40410619418,
  40253065115, 40096125126, 39939796957, 39784078241, 39628966629, 39474459745, 39320555202, 39167250688,
  39014543855, 38862432388, 38710913923, 38559986179, 38409646845, 38259893598, 38110724237, 37962136384,
  37814127874, 37666696366, 37519839641, 37373555454, 37227841552, 37082695761, 36938115844, 36794099595,
  36650644785, 36507749258, 36365410852, 36223627378, 36082396636, 35941716496, 35801584839, 35661999515,
  35522958355, 35384459270, 35246500153, 35109078874, 34972193301, 34835841506, 34700021206, 34564730452,
  34429967168, 34295729255, 34162014667, 34028821393, 33896147440, 33763990638, 33632349177, 33501220875,
  33370603786, 33240495935, 33110895349, 32981800029, 32853207957, 32725117259, 32597525905, 32470432039,
  32343833625, 32217728771, 32092115564, 31966992076, 31842356369, 31718206601, 31594540851, 31471357230,
  31348653807, 31226428781, 31104680290, 30983406430, 30862605428, 30742275365, 30622414344, 30503020734,
  30384092498, 30265627955, 30147625285, 30030082647, 29912998246, 29796370284, 29680197116, 29564476801,
  29449207636, 29334387848, 29220015755, 29106089522, 28992607441, 28879567788, 28766968832, 28654808827,
  28543086133, 28431799016, 28320945739, 28210524614, 28100534057, 27990972278, 27881837631, 27773128454,
  27664843072, 27556979862, 27449537240, 27342513376, 27235906898, 27129715947, 27023938965, 26918574454,
  26813620697, 26709076088, 26604939094, 26501208124, 26397881503, 26294957719, 26192435211, 26090312417,
  25988587704, 25887259568, 25786326537, 25685786981, 25585639420, 25485882320, 25386514098, 25287533198,
  25188938340, 25090727730, 24992900098, 24895453851, 24798387483, 24701699541, 24605388554, 24509453055,
  24413891544, 24318702553, 24223884806, 24129436584, 24035356699, 23941643488, 23848295675, 23755311833,
  23662690474, 23570430202, 23478529605, 23386987266, 23295801868, 23204972004, 23114496138, 23024373140,
  22934601349, 22845179692, 22756106609, 22667380760, 22579000817, 22490965452, 22403273315, 22315923051,
  22228913295, 22142242766, 22055910211, 21969914094, 21884253412, 21798926590, 21713932365, 21629269637,
  21544936946, 21460933016, 21377256573, 21293906333, 21210881049, 21128179543, 21045800383, 20963742364,
  20882004335, 20800584913, 20719482888, 20638697156, 20558226324, 20478069200, 20398224585, 20318691263,
  20239468017, 20160553614, 20081946814, 20003646582, 19925651590, 19847960598, 19770572597, 19693486249,
  19616700349, 19540213975, 19464025739, 19388134512, 19312539154, 19237238514, 19162231436, 19087516750,
  19013093353, 18938960221, 18865115992, 18791559703, 18718290159, 18645306312, 18572606880, 18500191019,
  18428057460, 18356205092, 18284632840, 18213339626, 18142324364, 18071585956, 18001123296, 17930935336,
  17861021147, 17791379402, 17722009219, 17652909456, 17584079133, 17515517017, 17447222388, 17379193961,
  17311430713, 17243931641, 17176695733, 17109721967, 17043009316, 16976556746, 16910363210]
theorem check7 : check 14 lanes7 16844427682 = true := by decide +kernel
theorem curve7 : shrink^[6012928] 70647917543 = 16844427682 :=
  check_curve check7 rfl (by decide +kernel)

theorem check8_13 : check 13 [16844427682] 16811556489 = true := by decide +kernel
theorem curve8_13 : shrink^[8192] 16844427682 = 16811556489 :=
  check_curve check8_13 rfl (by decide +kernel)
theorem check8_12 : check 12 [16811556489] 16795144942 = true := by decide +kernel
theorem curve8_12 : shrink^[4096] 16811556489 = 16795144942 :=
  check_curve check8_12 rfl (by decide +kernel)
theorem check8_11 : check 11 [16795144942] 16786945174 = true := by decide +kernel
theorem curve8_11 : shrink^[2048] 16795144942 = 16786945174 :=
  check_curve check8_11 rfl (by decide +kernel)
theorem check8_10 : check 10 [16786945174] 16782846791 = true := by decide +kernel
theorem curve8_10 : shrink^[1024] 16786945174 = 16782846791 :=
  check_curve check8_10 rfl (by decide +kernel)
theorem check8_9 : check 9 [16782846791] 16780797920 = true := by decide +kernel
theorem curve8_9 : shrink^[512] 16782846791 = 16780797920 :=
  check_curve check8_9 rfl (by decide +kernel)
theorem check8_7 : check 7 [16780797920] 16780285792 = true := by decide +kernel
theorem curve8_7 : shrink^[128] 16780797920 = 16780285792 :=
  check_curve check8_7 rfl (by decide +kernel)
theorem check8_6 : check 6 [16780285792] 16780029728 = true := by decide +kernel
theorem curve8_6 : shrink^[64] 16780285792 = 16780029728 :=
  check_curve check8_6 rfl (by decide +kernel)
theorem check8_4 : check 4 [16780029728] 16779965712 = true := by decide +kernel
theorem curve8_4 : shrink^[16] 16780029728 = 16779965712 :=
  check_curve check8_4 rfl (by decide +kernel)
theorem check8_3 : check 3 [16779965712] 16779933704 = true := by decide +kernel
theorem curve8_3 : shrink^[8] 16779965712 = 16779933704 :=
  check_curve check8_3 rfl (by decide +kernel)
theorem check8_2 : check 2 [16779933704] 16779917700 = true := by decide +kernel
theorem curve8_2 : shrink^[4] 16779933704 = 16779917700 :=
  check_curve check8_2 rfl (by decide +kernel)
theorem check8_1 : check 1 [16779917700] 16779909698 = true := by decide +kernel
theorem curve8_1 : shrink^[2] 16779917700 = 16779909698 :=
  check_curve check8_1 rfl (by decide +kernel)
theorem check8_0 : check 0 [16779909698] 16779905697 = true := by decide +kernel
theorem curve8_0 : shrink^[1] 16779909698 = 16779905697 :=
  check_curve check8_0 rfl (by decide +kernel)

/-- The value before the tail starts. -/
theorem curve_end : shrink^[48692959] 1847999995805697 = 16779905697 := by
  have h0 := iter_glue (k := 12189696) curve0 curve1 rfl
  have h1 := iter_glue (k := 18284544) h0 curve2 rfl
  have h2 := iter_glue (k := 24379392) h1 curve3 rfl
  have h3 := iter_glue (k := 30474240) h2 curve4 rfl
  have h4 := iter_glue (k := 36569088) h3 curve5 rfl
  have h5 := iter_glue (k := 42663936) h4 curve6 rfl
  have h6 := iter_glue (k := 48676864) h5 curve7 rfl
  have h7 := iter_glue (k := 48685056) h6 curve8_13 rfl
  have h8 := iter_glue (k := 48689152) h7 curve8_12 rfl
  have h9 := iter_glue (k := 48691200) h8 curve8_11 rfl
  have h10 := iter_glue (k := 48692224) h9 curve8_10 rfl
  have h11 := iter_glue (k := 48692736) h10 curve8_9 rfl
  have h12 := iter_glue (k := 48692864) h11 curve8_7 rfl
  have h13 := iter_glue (k := 48692928) h12 curve8_6 rfl
  have h14 := iter_glue (k := 48692944) h13 curve8_4 rfl
  have h15 := iter_glue (k := 48692952) h14 curve8_3 rfl
  have h16 := iter_glue (k := 48692956) h15 curve8_2 rfl
  have h17 := iter_glue (k := 48692958) h16 curve8_1 rfl
  have h18 := iter_glue (k := 48692959) h17 curve8_0 rfl
  exact h18

end Nimiq.Policy
