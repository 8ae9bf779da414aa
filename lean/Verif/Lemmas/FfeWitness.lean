import Verif.Lemmas.PrbsData

/-! The numbers of a draw for which the FFE training test fails: PRBS7 sent as OOK through the channel with the poles 3/10, 3/10, 3/10. -/

namespace Verif

/-- the symbols of PRBS7 with levels 0 and 1 -/
def bit7 (t : ℕ) : ℕ := if csvPrbs7.testBit (t % 127) then 1 else 0

/-- the first 230 samples behind the channel, times `10 ^ 230` -/
def ffeWitOut : List ℕ :=
    [0,
    0,
    0,
    0,
    0,
    0,
    100000000000000000000000000000000000000000000000000000000000000000000000000000000000000000000000000000000000000000000000000000000000000000000000000000000000000000000000000000000000000000000000000000000000000000000000000000000000000,
    90000000000000000000000000000000000000000000000000000000000000000000000000000000000000000000000000000000000000000000000000000000000000000000000000000000000000000000000000000000000000000000000000000000000000000000000000000000000000,
    54000000000000000000000000000000000000000000000000000000000000000000000000000000000000000000000000000000000000000000000000000000000000000000000000000000000000000000000000000000000000000000000000000000000000000000000000000000000000,
    27000000000000000000000000000000000000000000000000000000000000000000000000000000000000000000000000000000000000000000000000000000000000000000000000000000000000000000000000000000000000000000000000000000000000000000000000000000000000,
    12150000000000000000000000000000000000000000000000000000000000000000000000000000000000000000000000000000000000000000000000000000000000000000000000000000000000000000000000000000000000000000000000000000000000000000000000000000000000,
    5103000000000000000000000000000000000000000000000000000000000000000000000000000000000000000000000000000000000000000000000000000000000000000000000000000000000000000000000000000000000000000000000000000000000000000000000000000000000,
    102041200000000000000000000000000000000000000000000000000000000000000000000000000000000000000000000000000000000000000000000000000000000000000000000000000000000000000000000000000000000000000000000000000000000000000000000000000000000,
    190787320000000000000000000000000000000000000000000000000000000000000000000000000000000000000000000000000000000000000000000000000000000000000000000000000000000000000000000000000000000000000000000000000000000000000000000000000000000,
    144295245000000000000000000000000000000000000000000000000000000000000000000000000000000000000000000000000000000000000000000000000000000000000000000000000000000000000000000000000000000000000000000000000000000000000000000000000000000,
    81108256500000000000000000000000000000000000000000000000000000000000000000000000000000000000000000000000000000000000000000000000000000000000000000000000000000000000000000000000000000000000000000000000000000000000000000000000000000,
    39188972340000000000000000000000000000000000000000000000000000000000000000000000000000000000000000000000000000000000000000000000000000000000000000000000000000000000000000000000000000000000000000000000000000000000000000000000000000,
    17266817466000000000000000000000000000000000000000000000000000000000000000000000000000000000000000000000000000000000000000000000000000000000000000000000000000000000000000000000000000000000000000000000000000000000000000000000000000,
    107149036113100000000000000000000000000000000000000000000000000000000000000000000000000000000000000000000000000000000000000000000000000000000000000000000000000000000000000000000000000000000000000000000000000000000000000000000000000,
    92830194039150000000000000000000000000000000000000000000000000000000000000000000000000000000000000000000000000000000000000000000000000000000000000000000000000000000000000000000000000000000000000000000000000000000000000000000000000,
    155083138956280000000000000000000000000000000000000000000000000000000000000000000000000000000000000000000000000000000000000000000000000000000000000000000000000000000000000000000000000000000000000000000000000000000000000000000000000,
    117403696645135200000000000000000000000000000000000000000000000000000000000000000000000000000000000000000000000000000000000000000000000000000000000000000000000000000000000000000000000000000000000000000000000000000000000000000000000,
    66297294701483130000000000000000000000000000000000000000000000000000000000000000000000000000000000000000000000000000000000000000000000000000000000000000000000000000000000000000000000000000000000000000000000000000000000000000000000,
    32155811888967873000000000000000000000000000000000000000000000000000000000000000000000000000000000000000000000000000000000000000000000000000000000000000000000000000000000000000000000000000000000000000000000000000000000000000000000,
    114209860940089291000000000000000000000000000000000000000000000000000000000000000000000000000000000000000000000000000000000000000000000000000000000000000000000000000000000000000000000000000000000000000000000000000000000000000000000,
    195896832592999080700000000000000000000000000000000000000000000000000000000000000000000000000000000000000000000000000000000000000000000000000000000000000000000000000000000000000000000000000000000000000000000000000000000000000000000,
    246338693800877196631000000000000000000000000000000000000000000000000000000000000000000000000000000000000000000000000000000000000000000000000000000000000000000000000000000000000000000000000000000000000000000000000000000000000000000,
    271896345866062136035900000000000000000000000000000000000000000000000000000000000000000000000000000000000000000000000000000000000000000000000000000000000000000000000000000000000000000000000000000000000000000000000000000000000000000,
    183484478433230054520840000000000000000000000000000000000000000000000000000000000000000000000000000000000000000000000000000000000000000000000000000000000000000000000000000000000000000000000000000000000000000000000000000000000000000,
    98375161938693956648100000000000000000000000000000000000000000000000000000000000000000000000000000000000000000000000000000000000000000000000000000000000000000000000000000000000000000000000000000000000000000000000000000000000000000,
    146338037906236123935632500000000000000000000000000000000000000000000000000000000000000000000000000000000000000000000000000000000000000000000000000000000000000000000000000000000000000000000000000000000000000000000000000000000000000,
    110097021309862354719144930000000000000000000000000000000000000000000000000000000000000000000000000000000000000000000000000000000000000000000000000000000000000000000000000000000000000000000000000000000000000000000000000000000000000,
    62232178316537102614108362000000000000000000000000000000000000000000000000000000000000000000000000000000000000000000000000000000000000000000000000000000000000000000000000000000000000000000000000000000000000000000000000000000000000,
    30233891754688931924790472200000000000000000000000000000000000000000000000000000000000000000000000000000000000000000000000000000000000000000000000000000000000000000000000000000000000000000000000000000000000000000000000000000000000,
    113380434009121304603919080350000000000000000000000000000000000000000000000000000000000000000000000000000000000000000000000000000000000000000000000000000000000000000000000000000000000000000000000000000000000000000000000000000000000,
    95559508648989664294414670595000000000000000000000000000000000000000000000000000000000000000000000000000000000000000000000000000000000000000000000000000000000000000000000000000000000000000000000000000000000000000000000000000000000,
    156207155679004546783884394590400000000000000000000000000000000000000000000000000000000000000000000000000000000000000000000000000000000000000000000000000000000000000000000000000000000000000000000000000000000000000000000000000000000,
    217846644494123157970309809240160000000000000000000000000000000000000000000000000000000000000000000000000000000000000000000000000000000000000000000000000000000000000000000000000000000000000000000000000000000000000000000000000000000,
    156466154744902335477579237882801000000000000000000000000000000000000000000000000000000000000000000000000000000000000000000000000000000000000000000000000000000000000000000000000000000000000000000000000000000000000000000000000000000,
    86218538460331972041002544253618500000000000000000000000000000000000000000000000000000000000000000000000000000000000000000000000000000000000000000000000000000000000000000000000000000000000000000000000000000000000000000000000000000,
    141232682234516469523154260449384700000000000000000000000000000000000000000000000000000000000000000000000000000000000000000000000000000000000000000000000000000000000000000000000000000000000000000000000000000000000000000000000000000,
    208054994804887553177662786878804862000000000000000000000000000000000000000000000000000000000000000000000000000000000000000000000000000000000000000000000000000000000000000000000000000000000000000000000000000000000000000000000000000,
    251444571659508314333751926564438206300000000000000000000000000000000000000000000000000000000000000000000000000000000000000000000000000000000000000000000000000000000000000000000000000000000000000000000000000000000000000000000000000,
    173938548316569788219532946482850459830000000000000000000000000000000000000000000000000000000000000000000000000000000000000000000000000000000000000000000000000000000000000000000000000000000000000000000000000000000000000000000000000,
    194272143996577528463263526907894829420000000000000000000000000000000000000000000000000000000000000000000000000000000000000000000000000000000000000000000000000000000000000000000000000000000000000000000000000000000000000000000000000,
    134670524986252657284674580683975553894000000000000000000000000000000000000000000000000000000000000000000000000000000000000000000000000000000000000000000000000000000000000000000000000000000000000000000000000000000000000000000000000,
    173446334413098843153053359905483356976610000000000000000000000000000000000000000000000000000000000000000000000000000000000000000000000000000000000000000000000000000000000000000000000000000000000000000000000000000000000000000000000,
    124986007113408334639394002356774782121909000000000000000000000000000000000000000000000000000000000000000000000000000000000000000000000000000000000000000000000000000000000000000000000000000000000000000000000000000000000000000000000,
    69293000285159635270816408625084137481171400000000000000000000000000000000000000000000000000000000000000000000000000000000000000000000000000000000000000000000000000000000000000000000000000000000000000000000000000000000000000000000,
    133300529365177090156230827843694583198507300000000000000000000000000000000000000000000000000000000000000000000000000000000000000000000000000000000000000000000000000000000000000000000000000000000000000000000000000000000000000000000,
    204635988543728304652750952794185326876031835000000000000000000000000000000000000000000000000000000000000000000000000000000000000000000000000000000000000000000000000000000000000000000000000000000000000000000000000000000000000000000,
    250052157768456969997605577029846528436823308300000000000000000000000000000000000000000000000000000000000000000000000000000000000000000000000000000000000000000000000000000000000000000000000000000000000000000000000000000000000000000,
    273394339377664412175820494424211591082972079120000000000000000000000000000000000000000000000000000000000000000000000000000000000000000000000000000000000000000000000000000000000000000000000000000000000000000000000000000000000000000,
    284065994533095253284509214909174873122385437512000000000000000000000000000000000000000000000000000000000000000000000000000000000000000000000000000000000000000000000000000000000000000000000000000000000000000000000000000000000000000,
    188594331707564674858522110503526112485538661722500000000000000000000000000000000000000000000000000000000000000000000000000000000000000000000000000000000000000000000000000000000000000000000000000000000000000000000000000000000000000,
    200418727176069428114599564777149998453180973558250000000000000000000000000000000000000000000000000000000000000000000000000000000000000000000000000000000000000000000000000000000000000000000000000000000000000000000000000000000000000,
    137126166749813594930020387266030669811071844350174000000000000000000000000000000000000000000000000000000000000000000000000000000000000000000000000000000000000000000000000000000000000000000000000000000000000000000000000000000000000,
    74392540693397736067256563033192308284715340920936600000000000000000000000000000000000000000000000000000000000000000000000000000000000000000000000000000000000000000000000000000000000000000000000000000000000000000000000000000000000,
    35340527235362166388519590417027846565490295140368710000000000000000000000000000000000000000000000000000000000000000000000000000000000000000000000000000000000000000000000000000000000000000000000000000000000000000000000000000000000,
    15422895026853528074618909812545966756967063375133655000000000000000000000000000000000000000000000000000000000000000000000000000000000000000000000000000000000000000000000000000000000000000000000000000000000000000000000000000000000,
    106347261769342129216072656620590043832275291554586026000000000000000000000000000000000000000000000000000000000000000000000000000000000000000000000000000000000000000000000000000000000000000000000000000000000000000000000000000000000,
    192502548170512242206808314250403380281934893256631291720000000000000000000000000000000000000000000000000000000000000000000000000000000000000000000000000000000000000000000000000000000000000000000000000000000000000000000000000000000,
    244954950841463688355802576102742471521465185922358544213000000000000000000000000000000000000000000000000000000000000000000000000000000000000000000000000000000000000000000000000000000000000000000000000000000000000000000000000000000,
    171355143819051251613218035373615242876667679022806063729300000000000000000000000000000000000000000000000000000000000000000000000000000000000000000000000000000000000000000000000000000000000000000000000000000000000000000000000000000,
    93279361510554761135413360773274142545817553039417695295300000000000000000000000000000000000000000000000000000000000000000000000000000000000000000000000000000000000000000000000000000000000000000000000000000000000000000000000000000,
    44299320201074966671909824699844659445615084419221969252610000000000000000000000000000000000000000000000000000000000000000000000000000000000000000000000000000000000000000000000000000000000000000000000000000000000000000000000000000,
    119310549456232068291714121776163786571352863990272758318309100000000000000000000000000000000000000000000000000000000000000000000000000000000000000000000000000000000000000000000000000000000000000000000000000000000000000000000000000,
    97937220817103599011783217670467751712638578730119828561246590000000000000000000000000000000000000000000000000000000000000000000000000000000000000000000000000000000000000000000000000000000000000000000000000000000000000000000000000,
    57125732027639604771983648290752559972141054859053194128998944000000000000000000000000000000000000000000000000000000000000000000000000000000000000000000000000000000000000000000000000000000000000000000000000000000000000000000000000,
    128191494039575938405480095978607433249941060443752885479156816000000000000000000000000000000000000000000000000000000000000000000000000000000000000000000000000000000000000000000000000000000000000000000000000000000000000000000000000,
    102592701950217448449814648219346128028710111213146469887565077450000000000000000000000000000000000000000000000000000000000000000000000000000000000000000000000000000000000000000000000000000000000000000000000000000000000000000000000,
    59264123129256469564197115987037827367602822253212980060919200873000000000000000000000000000000000000000000000000000000000000000000000000000000000000000000000000000000000000000000000000000000000000000000000000000000000000000000000,
    129098851628840661863275411960532990760839218632323463093121943906200000000000000000000000000000000000000000000000000000000000000000000000000000000000000000000000000000000000000000000000000000000000000000000000000000000000000000000,
    202957656173713220002759644949901823752277707763478566854325822371020000000000000000000000000000000000000000000000000000000000000000000000000000000000000000000000000000000000000000000000000000000000000000000000000000000000000000000,
    149405331941044843977632641357217755210548624157240125595395133702815000000000000000000000000000000000000000000000000000000000000000000000000000000000000000000000000000000000000000000000000000000000000000000000000000000000000000000,
    183151900574016488049432709207956878026921439548449633488701940777825500000000000000000000000000000000000000000000000000000000000000000000000000000000000000000000000000000000000000000000000000000000000000000000000000000000000000000,
    229977127609222988310603135534359745558692665180763757534141857804300440000000000000000000000000000000000000000000000000000000000000000000000000000000000000000000000000000000000000000000000000000000000000000000000000000000000000000,
    161562345655724448493592071811420293326239422836851464129853816623833516000000000000000000000000000000000000000000000000000000000000000000000000000000000000000000000000000000000000000000000000000000000000000000000000000000000000000,
    188257387951160241977704701184615968399495339822168243286845085755290334100000000000000000000000000000000000000000000000000000000000000000000000000000000000000000000000000000000000000000000000000000000000000000000000000000000000000,
    132019198274447637371050656336498605491545863633882145096521876852042363250000000000000000000000000000000000000000000000000000000000000000000000000000000000000000000000000000000000000000000000000000000000000000000000000000000000000,
    172349967032894168409292307321910781394335999935103494430927569061753241650000000000000000000000000000000000000000000000000000000000000000000000000000000000000000000000000000000000000000000000000000000000000000000000000000000000000,
    224552736270185216011577426310849710918971390935643508380518722720919318428200000000000000000000000000000000000000000000000000000000000000000000000000000000000000000000000000000000000000000000000000000000000000000000000000000000000,
    159127489897695355148929128423934291198875270177716031963722497477159155147630000000000000000000000000000000000000000000000000000000000000000000000000000000000000000000000000000000000000000000000000000000000000000000000000000000000,
    187238951224863953857961202775303031228512539605568475854245236959462361181803000000000000000000000000000000000000000000000000000000000000000000000000000000000000000000000000000000000000000000000000000000000000000000000000000000000,
    231613557709294813414266808333703411676777190252290674364889644458147974771324000000000000000000000000000000000000000000000000000000000000000000000000000000000000000000000000000000000000000000000000000000000000000000000000000000000,
    262194127334889839120211689218447477939770717828356451310774973465161636964090800000000000000000000000000000000000000000000000000000000000000000000000000000000000000000000000000000000000000000000000000000000000000000000000000000000,
    278494505702962582340503434521435990836233643246752672949241893512851003831332921000000000000000000000000000000000000000000000000000000000000000000000000000000000000000000000000000000000000000000000000000000000000000000000000000000,
    186106206810397027506181138805321564824145169245233012008260481726342256786720860900000000000000000000000000000000000000000000000000000000000000000000000000000000000000000000000000000000000000000000000000000000000000000000000000000,
    199381311027599453179872813212899772720321378025452113296530046588797624271619337740000000000000000000000000000000000000000000000000000000000000000000000000000000000000000000000000000000000000000000000000000000000000000000000000000,
    236713855740012300158410217146251744698348352894356310894276242988652429615488760390000000000000000000000000000000000000000000000000000000000000000000000000000000000000000000000000000000000000000000000000000000000000000000000000000,
    164234383772439937526670426611887313844278665107669900539008539117423069033844126405500000000000000000000000000000000000000000000000000000000000000000000000000000000000000000000000000000000000000000000000000000000000000000000000000,
    89281499743137807967089191277958905254745420522113913602659410856642141989611470578630000000000000000000000000000000000000000000000000000000000000000000000000000000000000000000000000000000000000000000000000000000000000000000000000,
    42401340255245576142456332827902237098171044418979269491006622769967314751130605921812000000000000000000000000000000000000000000000000000000000000000000000000000000000000000000000000000000000000000000000000000000000000000000000000,
    118489529660929688690316719418584066443368200394017673183741150117847627802736239686349200000000000000000000000000000000000000000000000000000000000000000000000000000000000000000000000000000000000000000000000000000000000000000000000,
    197602815318985135077933245777696946224403324715588578770067051051301027873376861824448050000000000000000000000000000000000000000000000000000000000000000000000000000000000000000000000000000000000000000000000000000000000000000000000,
    146995196965527236179600727943262914063904196336957389409707414229141183077580917286577885000000000000000000000000000000000000000000000000000000000000000000000000000000000000000000000000000000000000000000000000000000000000000000000,
    182142134433693627685237230213260216970895820440691211376779580075557673194684951336850551400000000000000000000000000000000000000000000000000000000000000000000000000000000000000000000000000000000000000000000000000000000000000000000,
    129574493823244509795325508283251026024610995152964486725272430604518914196850783805049564660000000000000000000000000000000000000000000000000000000000000000000000000000000000000000000000000000000000000000000000000000000000000000000,
    71407538461892014717628124951813763519733437419779260495076801107853262957695453330332562211000000000000000000000000000000000000000000000000000000000000000000000000000000000000000000000000000000000000000000000000000000000000000000,
    134199508913136523548628830435912635999329312138399585736918613395887887005032690056030888419500000000000000000000000000000000000000000000000000000000000000000000000000000000000000000000000000000000000000000000000000000000000000000,
    104998033970339628984480142378979433951732849690349267971138371383500727989266619813974346026400000000000000000000000000000000000000000000000000000000000000000000000000000000000000000000000000000000000000000000000000000000000000000,
    160192366705229889125278303297084050451773453254280493058423582258172963798838908757367550730192000000000000000000000000000000000000000000000000000000000000000000000000000000000000000000000000000000000000000000000000000000000000000,
    219447047603369886522753812946820839411610129940194930215270666320499443810988913163370556217371300000000000000000000000000000000000000000000000000000000000000000000000000000000000000000000000000000000000000000000000000000000000000,
    257085350749819997789234253606158506565167071509159134303189968506097318859913715217521569241195130000000000000000000000000000000000000000000000000000000000000000000000000000000000000000000000000000000000000000000000000000000000000,
    176451306722969335655549812938922298629713512512256163027325328469923407167523987678108286008100550000000000000000000000000000000000000000000000000000000000000000000000000000000000000000000000000000000000000000000000000000000000000,
    195318201633511989623015936120931434658260525461942843578543812116938275341491586456977638730036835000000000000000000000000000000000000000000000000000000000000000000000000000000000000000000000000000000000000000000000000000000000000,
    235085833125204209974025217862695550239671335468186691829497721368029755481328621449063720004358271510000000000000000000000000000000000000000000000000000000000000000000000000000000000000000000000000000000000000000000000000000000000,
    263605520653155723841108238273125409920976124884474371282078903828341377584516178628082309269031213759000000000000000000000000000000000000000000000000000000000000000000000000000000000000000000000000000000000000000000000000000000000,
    179045385088139838483832035898150219099940286007088984136527311603296539280326105808365270186662353620400000000000000000000000000000000000000000000000000000000000000000000000000000000000000000000000000000000000000000000000000000000,
    96314673497354322867648288856884116367753829745213046156109714886251516802469999777071240105475363874200000000000000000000000000000000000000000000000000000000000000000000000000000000000000000000000000000000000000000000000000000000,
    145458301231456338733958732712069531641860924920658523848252499668101516711316888054063715494792834780765000000000000000000000000000000000000000000000000000000000000000000000000000000000000000000000000000000000000000000000000000000,
    209741734661404813325361286418753922974079686119576551572963864095292462064087104165673971411875086604405300000000000000000000000000000000000000000000000000000000000000000000000000000000000000000000000000000000000000000000000000000,
    152094316047199687252082803743755628275298621182161847222854265077304597299289523968490294569941347377761620000000000000000000000000000000000000000000000000000000000000000000000000000000000000000000000000000000000000000000000000000,
    84181990217149740074843861819542383599097488784517773719771412754883913763262609424369013150100345795876682000000000000000000000000000000000000000000000000000000000000000000000000000000000000000000000000000000000000000000000000000,
    140361352698548780469081873360080481525157263712110864490093644239096177591858528822912929529326774762612319500000000000000000000000000000000000000000000000000000000000000000000000000000000000000000000000000000000000000000000000000,
    107702626603337864157772079033877391764318278140998349011763063528455127243672588543191240979255420300663947150000000000000000000000000000000000000000000000000000000000000000000000000000000000000000000000000000000000000000000000000,
    161307712450258949997363549592395566933269621321810560588695301375435512241111617361143589263464358421180896584000000000000000000000000000000000000000000000000000000000000000000000000000000000000000000000000000000000000000000000000,
    119886988545192648747693943874731287464755970211786943637882272479664673456189036996586244370010782016474073821600000000000000000000000000000000000000000000000000000000000000000000000000000000000000000000000000000000000000000000000,
    167253178247393589705896237231226045223934168943526353338463916575598906241049156500085014338314223389225750934810000000000000000000000000000000000000000000000000000000000000000000000000000000000000000000000000000000000000000000000,
    122513681751609207223358064500920673393254919867680128358284084485666312614283214529749103834693427583227060117265000000000000000000000000000000000000000000000000000000000000000000000000000000000000000000000000000000000000000000000,
    168340904140372218796618010483015318605015613461878247599293239918638922851088724820659068177869535624258201346323000000000000000000000000000000000000000000000000000000000000000000000000000000000000000000000000000000000000000000000,
    222943955466080137888708730424708308149381446312891999722765738863186296628631711641063198711849840645870170255269020000000000000000000000000000000000000000000000000000000000000000000000000000000000000000000000000000000000000000000,
    258505385208865073619781662293348199492706968883323036364353660479948148236560231567682156236176804507480569489401063000000000000000000000000000000000000000000000000000000000000000000000000000000000000000000000000000000000000000000,
    277005183123926978935360825132383549945438703053980605487952462416696284240153041837984671801162144544202538007889042300000000000000000000000000000000000000000000000000000000000000000000000000000000000000000000000000000000000000000,
    285527697602724874887478829521408305407897250200533409113296402794746685801239531345220728802498138570201025041854114600000000000000000000000000000000000000000000000000000000000000000000000000000000000000000000000000000000000000000,
    289163173799631460073917628665444317768142163515755026702057146495722620478661383166770212754311319407948212651752490420000000000000000000000000000000000000000000000000000000000000000000000000000000000000000000000000000000000000000,
    290633518011278626278161324106693999379722534592492979919436119576819552938944703516509180840837067955892583151489634578100000000000000000000000000000000000000000000000000000000000000000000000000000000000000000000000000000000000000,
    191205357119523841052349360353432657890365122739404226763996080940750650632445127056151264990756754661552735096497559801090000000000000000000000000000000000000000000000000000000000000000000000000000000000000000000000000000000000000,
    101421177237116277274006642783249008848543364540416085230304263516318817028609401746581455409021476471321065877542919726234000000000000000000000000000000000000000000000000000000000000000000000000000000000000000000000000000000000000,
    47500718077437735371982006960378028316542953380732645938819670539258387584339784261708216203317605900378820558824506740925000000000000000000000000000000000000000000000000000000000000000000000000000000000000000000000000000000000000,
    20529473057899710679215445442405674858821807930710952455383446521326735795257285794476485777300479038946174563610901855378750000000000000000000000000000000000000000000000000000000000000000000000000000000000000000000000000000000000,
    8389703656603690547256938374010762966383700567433277107582005938534905627732269311525318120718257406674944335060853682399443000000000000000000000000000000000000000000000000000000000000000000000000000000000000000000000000000000000,
    3290294953401218464186588455090361222410102110677773674218405888483172865016749390930256986264877684802210924468086495212211200000000000000000000000000000000000000000000000000000000000000000000000000000000000000000000000000000000,
    101250341243341392358347373275543372320433681560532207204044776752306252925499308454176260511031573350571301574772341701538366720000000000000000000000000000000000000000000000000000000000000000000000000000000000000000000000000000000,
    90463449480317223781958194401212928158431945749916686073506043647525613411343626544618648662896291990597797964735367227102017985000000000000000000000000000000000000000000000000000000000000000000000000000000000000000000000000000000,
    54168350360325158365541622064982364569076729910569621410267246518639409447679902841084310397257289684373426438033936580347186874500000000000000000000000000000000000000000000000000000000000000000000000000000000000000000000000000000,
    27060143178177209701534126448596308562044140969169523623903099054255821710837614718191603252347414358940103486270846996936459232540000000000000000000000000000000000000000000000000000000000000000000000000000000000000000000000000000,
    12171187399040261014797347095024188332466672331646524004725295767280790550986557395984382633751404592011408544422454335680827338766000000000000000000000000000000000000000000000000000000000000000000000000000000000000000000000000000,
    5110375460757167569773022040155290030833158744391480003876145101906903689049103059183487872968409077374522262513996500609274657715100000000000000000000000000000000000000000000000000000000000000000000000000000000000000000000000000,
    102043741182751365000741857534595330509159033146575347660058084409015307057570437853740529062372069117485372523397847048831808209755350000000000000000000000000000000000000000000000000000000000000000000000000000000000000000000000000,
    190788187749845880304228484201859522234894777123886569441133299776315493700646773292078512761544679678830022290878689555847505569343420000000000000000000000000000000000000000000000000000000000000000000000000000000000000000000000000,
    144295538992958867247989205842417023604764855748021138588908942926001297824642403524958672811119900094315081581561279802594617211533441200000000000000000000000000000000000000000000000000000000000000000000000000000000000000000000000,
    81108355413138879696068624677107324164614074244727185367733625972839398033557936205652601369074892437771572462999647512574787808320768130000000000000000000000000000000000000000000000000000000000000000000000000000000000000000000000,
    39189005412971936337718845705394202475208314750633696786865447879495626147466156512234619417726736519857753791531861832624645030746934533000000000000000000000000000000000000000000000000000000000000000000000000000000000000000000000,
    17266828462937134601704141029781064340570334334690557800791365537881461104924242980658839272204079212220161050070925375637042484137036597000000000000000000000000000000000000000000000000000000000000000000000000000000000000000000000,
    107149039751295748082143491452628420990651635923158037893187365957896159681522020701842228339162474526456383877851220626104203348246321352900000000000000000000000000000000000000000000000000000000000000000000000000000000000000000000,
    92830195237323389212587433063370334986463106558742893310900327759624931121021859252710453626029747572547461358918308981552646958534856568811000000000000000000000000000000000000000000000000000000000000000000000000000000000000000000,
    155083139349240500943395958872627716557536253230652578809271073044553274344741682298419795272202414831879435924358563499491447505726564134765900000000000000000000000000000000000000000000000000000000000000000000000000000000000000000,
    117403696773524120959875630327475921822185183306652006757516936125862411818992706629295733431111528316318000129716746681427901566752147124238640000000000000000000000000000000000000000000000000000000000000000000000000000000000000000,
    66297294743284505117911019091829845214066380480796667922656361640756659704280771945615997612408526664537533873859054210924342051411201222785880000000000000000000000000000000000000000000000000000000000000000000000000000000000000000,
    32155811902534035472425187883789310147723221777148578933711471694901080950032689383201884297117026553138665221407308400332643505901618608601538500000000000000000000000000000000000000000000000000000000000000000000000000000000000000,
    114209860944478966809263335959458170814351976818898224883676064157804959853986415098556361314695032962940250556826985083748360143732740389943640330000000000000000000000000000000000000000000000000000000000000000000000000000000000000,
    195896832594415562188965799150368645813811301530159796117118082148701601824094528297767848358538962717241299305958507770978667618154131759642079662000000000000000000000000000000000000000000000000000000000000000000000000000000000000,
    246338693801333103889323598599140386486543664624024307418023946346986431666759626004727296843739567262458045685997368348077724992190222380825330346200000000000000000000000000000000000000000000000000000000000000000000000000000000000,
    271896345866208523813220583039532184080147750122588983796458923264399089923635773971518269858056856492556477069823163012366917959950368558167914091750000000000000000000000000000000000000000000000000000000000000000000000000000000000,
    183484478433276953560883229690871014757739090803157836909108753642287787630497649817129804630122039675802672108882436966965664441754133217038619639975000000000000000000000000000000000000000000000000000000000000000000000000000000000,
    98375161938708950580237086463287014015461968134591683893440615548039888243068735765234528320215452771318523322663868202328128723181256388911704790552400000000000000000000000000000000000000000000000000000000000000000000000000000000,
    146338037906240908203731861542490507599490206057589802101141581437956972186465662635317021524228491907018974401884448802348493236508174732490640689181160000000000000000000000000000000000000000000000000000000000000000000000000000000,
    110097021309863878472838509244807480453825409507176328836344393444532275408213974260234501450360765539307747811516585305593122097525779631095459057093221000000000000000000000000000000000000000000000000000000000000000000000000000000,
    62232178316537587076213457038363044734997986060543424850524623731627742359609703788336787758428813395307450071568050039862576189441888412714056194649900500000000000000000000000000000000000000000000000000000000000000000000000000000,
    30233891754689085702426474100075964244151562451106398236389997827266092012465533250393353172142694641653125464152647121029584921551459788824123928377632100000000000000000000000000000000000000000000000000000000000000000000000000000,
    113380434009121353340372833039320147713540236026342794581690648260002363810146137207529416699312386230316110589324956701414745154880199988548493757525912722000000000000000000000000000000000000000000000000000000000000000000000000000,
    95559508648989679717738165068403424804110236185544460070660448861394231629475291511455362942380198015711456807003583659671572267688216833854410438366908096300000000000000000000000000000000000000000000000000000000000000000000000000,
    156207155679004551658029198441648693475635441026057332278920458886390354722124874712037504674975686687279595654717608456590232641983630567859127426064416918430000000000000000000000000000000000000000000000000000000000000000000000000,
    217846644494123159508627040521076543419227719526065850285655739308194940532828004237344100463916898982528077737266653853758082984691214365623333196552109684080000000000000000000000000000000000000000000000000000000000000000000000000,
    156466154744902335962475383346570634308594354873433485963689473597307694958567320512168858954726039025133988470555330943914044324114094530253104553695412666296000000000000000000000000000000000000000000000000000000000000000000000000,
    86218538460331972193665332429147418878385592021755905761724329014296831096344398934094078560220215937894557717115176737335893767169615223841690575760541041762410000000000000000000000000000000000000000000000000000000000000000000000,
    141232682234516469571163375776727672399545705430957051933068443202915333742283138616807369498947920079847183157259919362796980663528510966161013284993632479156409000000000000000000000000000000000000000000000000000000000000000000000,
    208054994804887553192744233793542509188759072623569956305115645835890963735923154696749790529571272822309551946617823642922270476790944311424489323988699291954909400000000000000000000000000000000000000000000000000000000000000000000,
    251444571659508314338484662930058767031722235879441966108242158470900741691515690571757361833024152948843010357857972822582927781672731530462292450187083201514773100000000000000000000000000000000000000000000000000000000000000000000,
    173938548316569788221016664658768060002372796729769721697229566214598821324706514489112981183209087834091004241731380979531140452687173209417798446386254149472693295000000000000000000000000000000000000000000000000000000000000000000,
    194272143996577528463728233514201034651667008330179807498519349243564794956396551762639439714270082120696648923495271457839537209240173871659660851944811150999217782300000000000000000000000000000000000000000000000000000000000000000,
    134670524986252657284819996604025141695716152748868934975337969719980953728757061319752439592868272323041174165540436713791914616195783469273371082381092661982567688120000000000000000000000000000000000000000000000000000000000000000,
    173446334413098843153098823840575085790258510736537275939029146740014531893421362103070597402675168289669418654169417035243388900303911853652206102170313247050284837052000000000000000000000000000000000000000000000000000000000000000,
    124986007113408334639408204678314216888984307645603790704245002671194470661137526234021643844618510150740169284990929748356900568550143826117986142712896804686941957676500000000000000000000000000000000000000000000000000000000000000,
    69293000285159635270820841681836200862500415106397808374616757966710585734476446498423734030441807050177521022335685965277877203250359396690472900079912049388200183484050000000000000000000000000000000000000000000000000000000000000,
    133300529365177090156232210494203269532561590321331510497362718410797412443644046542178422919222858148280997516817140596645297829724990244018178916298037164854263527163394000000000000000000000000000000000000000000000000000000000000,
    204635988543728304652751383717001652202432895516902253535494536990828063758821714541704756822885984203974951659799546429561377517225748065815118967499905408760570557763626600000000000000000000000000000000000000000000000000000000000,
    250052157768456969997605711237276181631685487786325261173771801785931141837986514576603547771229142873896380231882027346573512035965185597059341531651602458707343754607216910000000000000000000000000000000000000000000000000000000000,
    273394339377664412175820536193301605651239220156805077385239890016905980575284389449321726070746030021437092193502009872044011944120289796171816088001514755922320443783727675000000000000000000000000000000000000000000000000000000000,
    284065994533095253284509227900265920655025904617773109975255867031766331942987777861332623999657480016848684006358249254862919692962755903125620477777928062515640990721024260000000000000000000000000000000000000000000000000000000000,
    188594331707564674858522114541454351967744232883889210135407348672245224822987850817450791350413490766971002979737696402282229323725062078967270307594319538550148653201710218320000000000000000000000000000000000000000000000000000000,
    200418727176069428114599566031456261546696274292935286517949006736900254191615044228277590339374764896303559489271753729786206396743859601723264782210887906225813372369023293513000000000000000000000000000000000000000000000000000000,
    137126166749813594930020387655425140218421403409671545098926030331561709032707490086994098488816397860045947203987073058072682671373701289614167073839336897882614205517126860235300000000000000000000000000000000000000000000000000000,
    74392540693397736067256563154008703082100363297476871902843193893593090567921351108730910614764735802747608501937910048084758868856065744319585173563510100954237188062224060857900000000000000000000000000000000000000000000000000000,
    35340527235362166388519590454492363976677347453027120271833469496608426935471799868532907900470953452460638012877946668300886233411644030938329695390232101898604594820341031433430000000000000000000000000000000000000000000000000000,
    15422895026853528074618909824157256532739892509466784548553463014629615932468957314671111903635422182693960490574567261055875147606431811697791239982723260693930678110468857084807100000000000000000000000000000000000000000000000000,
    106347261769342129216072656624186827588979729255234659161679846184209392511978552098635850166743370398934377607592388505807336839283758517271291897915303039837678773775609942532463590000000000000000000000000000000000000000000000000,
    192502548170512242206808314251516979393612273733386893664741930228246884486271817010261453449400185112930007740725721054785640793803760465221093975103973722217811937368371564715021924000000000000000000000000000000000000000000000000,
    244954950841463688355802576103087083931610496558890449507425122237080659689587088090099748580837612992857461945848717368787604396802143277951576128635978057278593603021102382901044354000000000000000000000000000000000000000000000000,
    171355143819051251613218035373721835447076585684878279064567644698719588507158409594982349245917872713851841856672895436773519037455575104513048023738020528627542346521473290586260516050000000000000000000000000000000000000000000000,
    93279361510554761135413360773307097684461624436291475920054129340998517421383393910434241447633734932444253154626046672002726248006140441575787203960311690799448761362574350391658080813000000000000000000000000000000000000000000000,
    44299320201074966671909824699854843611458267264835235117315930638645554593931135307178276218155151357266982010399675605830868801806178987704378072628186386536589478947088891232530130956200000000000000000000000000000000000000000000,
    119310549456232068291714121776166932432578869754044726641913049059576828320457782479707726835118310353054335187740843620599930848675203697530330016937010145640023008840564706349358469974420000000000000000000000000000000000000000000,
    97937220817103599011783217670468723051707714476914610345887904373391805718427949334380544091790699294462811361333750105109676796016180793019661190140627222362726665197583742542214255800755000000000000000000000000000000000000000000,
    57125732027639604771983648290752859767250021411781624466150120817210311474097693784715216895019874656338068238791138558394161244921024548052524174514532793240135702222444297636944356863403500000000000000000000000000000000000000000,
    128191494039575938405480095978607525742243565845195724845477026879282067147364738212913056925282592760731769397420914951931330518418783778965282146182409437810466553635547504458284750800168640000000000000000000000000000000000000000,
    102592701950217448449814648219346156553257811770371808234407764988788655089019441701776917361577316208397809939961227298809735203940665654506103256579041574858376878632267554699121084273653216000000000000000000000000000000000000000,
    59264123129256469564197115987037836161242018393249885563274244494568309860129655946300011111758821157881579051108818272983944797186395131532284904163779254581196885247448969061669590765554256100000000000000000000000000000000000000,
    129098851628840661863275411960532993470778783653744793354484603223879157813060289023938894849939693670365770235938769778709067736401083053694471152417985158732198036440151615007113627206717015450000000000000000000000000000000000000,
    202957656173713220002759644949901824587103521239992883739281106542655092056922777941991979133533430128327907736924465004200358718027046035482971900979600366643231249502396455836627744254734301590000000000000000000000000000000000000,
    149405331941044843977632641357217755467636432026100248069850557619295554607927722821879379910713857995759161633908488756899441066920081675988539192141206376994906970614996996365709369434117242174200000000000000000000000000000000000,
    183151900574016488049432709207956878106065865247343254073830687377893861552718428298999957714536817790634586177918381114100544935243600321259033580777879239587513183171734347258441009476508615944630000000000000000000000000000000000,
    229977127609222988310603135534359745583049237149041669548548557959546363138843015311626312803795796966181007427868211593441051039037548479574264882148414803739504226525076427821444327876523925106063000000000000000000000000000000000,
    161562345655724448493592071811420293333732713482059530691645381627281364180138786655924436198080550631977065781158956729726083711424863750128589885311358500855787732622805430181394975504935371829110000000000000000000000000000000000,
    188257387951160241977704701184615968401799926465290594704366161374678843976560691420265886979540124468257621024322440216605106272993816494304673285281153393229405674144391079027443416683646107498067000000000000000000000000000000000,
    132019198274447637371050656336498605492254430581629587024996103262752743055015911294553610953806849868884938361529719590941461421663735441287991839536978458376369033037971568526901428481615092332264301000000000000000000000000000000,
    172349967032894168409292307321910781394553790641853775080992054669250777708706680721336420151298506142630267624900980605066540845997502764950402795460775875889898866496004566951699227467502389113945750900000000000000000000000000000,
    224552736270185216011577426310849710919038313335191255133161787678498788100348855268020482127088389424411263272454564140854030046919376964653830897942305246156483294128050345888006891281174520175287623540000000000000000000000000000,
    159127489897695355148929128423934291198895828154075609197652648938045523371448595551410547969281738769919858022247145392356080472193034378566614833041163653426724234653349310572473749305835030589964644570000000000000000000000000000,
    187238951224863953857961202775303031228518853085496461319120486847116069245344625453380046342124759414187848362332025011426680915147431734907079882770065820270828591168832909433160392870956971589717057031500000000000000000000000000,
    231613557709294813414266808333703411676779128635396564592437591216451638289228461201397746773637600519349805968448366486150929907407392457249039323816387293464755237637002663974252627335877528216187663130030000000000000000000000000,
    262194127334889839120211689218447477939771312798932905025367922167412364895091678288733444379070762372371942480374556010044247242326058571320522423578942211287677548593357943415330849758388938891274336821912000000000000000000000000,
    278494505702962582340503434521435990836233825820790946538489233467101319937115130822723969563518902499093372526639006133087591827802437407573720720625415198070738251533589918355444886009378950616698594634463200000000000000000000000,
    186106206810397027506181138805321564824145225256155674771786786098034043655538033054931281787706121622666055565422081292192960997094157448905531655939601738139539879676223353725065888911744735316221731133611450000000000000000000000,
    199381311027599453179872813212899772720321395204497740164900948350633416759130619741098484825020316369698281873657454519311209779420887185395728001213410900551253857606552404868803113741514446468155344563136865000000000000000000000,
    236713855740012300158410217146251744698348358162047289516567630572712618934524397374370737438052642262084139741847000284081354311614041765656152113445263551546362637124723786671752024283445154952610804755878593400000000000000000000,
    164234383772439937526670426611887313844278666722544373939225854685417253694806217199320217399759957899869173162041183730348402186930540300154139696483485500172655408609740289240576760145508846764485767988851289660000000000000000000,
    89281499743137807967089191277958905254745421017058607360282334567710223465500534921317755641785297241101391726127126552632998968146058947417249312237677885552755809880467752846603721645448660305472468209083635831000000000000000000,
    42401340255245576142456332827902237098171044570641042477610446371339783332584961514477531290499000225102847572793163297845827047273786299306622770026391127842615059770158641707124928897269424832234555759594146061500000000000000000,
    118489529660929688690316719418584066443368200440479812338932269477430310513401088798655630007960588810791654724834634759569741480194096341677464950524633094463771181157879472077325003687200082929174649502881134601800000000000000000,
    197602815318985135077933245777696946224403324729819332034811845042753713995831554752756712961058002894444457984302449610115485001550707998277196038995461483409812403770921320935527073000644443759801611139147859872452000000000000000,
    146995196965527236179600727943262914063904196341315157646714429831598332907609899262734914907646316632164042294632268673061943632019623416277839713244976960015363551094996014707188987785262251463414627664964209486381300000000000000,
    182142134433693627685237230213260216970895820442025377165794959962785615221836218950780812927610960085339009086977915549532951338364210516340504365055869757043699668858610402329965554396116428741014445427475657006429730000000000000,
    129574493823244509795325508283251026024610995153372868849542487728129854092485376233088735859733924664270817124305577592326049518924360258264921499027016462187246478078915313791287203225501377953305694915944746961020010000000000000,
    71407538461892014717628124951813763519733437419904239386284889370817907561846526773162885485812023523870632100346053888892220183738117225265994842816844359487137735558763866180161885886201885187413420105885878529314277000000000000,
    134199508913136523548628830435912635999329312138437826041756392666136267811680400424583720204148157434434601512097346269912354481390561916949060171654373962188047303980762825701407222395391468197286930494534051736081049310000000000,
    104998033970339628984480142378979433951732849690360966262221480438061312049310903311664764970776911305481382756150427687913022920653171801405488427402118033386771039889951012734987545453666349581695867779221967527505629859000000000,
    160192366705229889125278303297084050451773453254284071068154798387410472039395961088736081926696142302780409138978444881245474863573332068770875199071280057963473882686236572908973211780471469110318972110634495526304669038400000000,
    219447047603369886522753812946820839411610129940196024373666941432378549813057791897176747637428762270752129121746613266672044759637187647271930428400248280131775590854806738473567248334609977453555937722533534138121870404000000000]

/-- sample `n` -/
def ffeY (n : ℕ) : ℕ := ffeWitOut.getD n 0

/-- sample `n - k`, zero before the start -/
def ffeAt (n k : ℕ) : ℕ := if k ≤ n then ffeY (n - k) else 0

theorem ffeWit_rec : ∀ n < 230, 1000 * ffeY n + 270 * ffeAt n 2 = 1000 * 10 ^ 230 * bit7 n + 900 * ffeAt n 1 + 27 * ffeAt n 3 := by
  decide +kernel

/-- the matrix of the gradient, times `10 ^ 12` and rounded -/
def ffeB (j l : ℕ) : ℕ :=
  ([[2619601370418, 2450488326005, 2266430029484, 2155964633287], [2460964182032, 2609619100874, 2445647935704, 2266258571182], [2285718842539, 2456149524451, 2609817546837, 2449134965748], [2183767329158, 2285634292019, 2459700722471, 2616732036897]].getD j []).getD l 0

/-- sum of products of samples of which the gradient is made -/
def ffeProd (j l : ℕ) : ℕ := ((List.range (221 - j)).map fun m => ffeY (m + 9) * ffeY (m + j + 9 - l)).sum

theorem ffeWit_cov : ∀ j < 4, ∀ l < 4,
    ((10 ^ 12 * ffeProd j l : ℤ) - (ffeB j l * (221 - j : ℕ) * (10 ^ 230 * 10 ^ 230) : ℤ)).natAbs ≤ (221 - j) * (10 ^ 230 * 10 ^ 230) := by
  decide +kernel

/-- two periods of the symbols -/
def bits7 : List ℕ :=
    [0, 0, 0, 0, 0, 0, 1, 0, 0, 0, 0, 0, 1, 1, 0, 0, 0, 0, 1, 0, 1, 0, 0, 0, 1, 1, 1, 1, 0, 0, 1, 0, 0, 0, 1, 0, 1, 1, 0, 0, 1, 1,
    1, 0, 1, 0, 1, 0, 0, 1, 1, 1, 1, 1, 0, 1, 0, 0, 0, 0, 1, 1, 1, 0, 0, 0, 1, 0, 0, 1, 0, 0, 1, 1, 0, 1, 1, 0, 1, 0, 1, 1, 0, 1,
    1, 1, 1, 0, 1, 1, 0, 0, 0, 1, 1, 0, 1, 0, 0, 1, 0, 1, 1, 1, 0, 1, 1, 1, 0, 0, 1, 1, 0, 0, 1, 0, 1, 0, 1, 0, 1, 1, 1, 1, 1, 1,
    1, 0, 0, 0, 0, 0, 0, 1, 0, 0, 0, 0, 0, 1, 1, 0, 0, 0, 0, 1, 0, 1, 0, 0, 0, 1, 1, 1, 1, 0, 0, 1, 0, 0, 0, 1, 0, 1, 1, 0, 0, 1,
    1, 1, 0, 1, 0, 1, 0, 0, 1, 1, 1, 1, 1, 0, 1, 0, 0, 0, 0, 1, 1, 1, 0, 0, 0, 1, 0, 0, 1, 0, 0, 1, 1, 0, 1, 1, 0, 1, 0, 1, 1, 0,
    1, 1, 1, 1, 0, 1, 1, 0, 0, 0, 1, 1, 0, 1, 0, 0, 1, 0, 1, 1, 1, 0, 1, 1, 1, 0, 0, 1, 1, 0, 0, 1, 0, 1, 0, 1, 0, 1, 1, 1, 1, 1,
    1, 1]

theorem bits7_eq : ∀ t < 254, bits7.getD t 0 = bit7 t := by
  decide +kernel

/-- sum of products -/
def natDot : List ℕ → List ℕ → ℕ
  | b :: bs, v :: l => b * v + natDot bs l
  | _, _ => 0

/-- correlation of the reference at phase `s` with the reference at phase 9 -/
def ffeSelf (s : ℕ) : ℕ := natDot ((bits7.drop s).take 127) (bits7.drop 9)

/-- correlation of the reference at phase `s` with the samples delayed by `j` -/
def ffeCorr (s j : ℕ) : ℕ := natDot ((bits7.drop s).take 127) (ffeWitOut.drop (9 - j))

/-- the same, times `10 ^ 12` and rounded down -/
def ffeCorr12 (s j : ℕ) : ℕ := ffeCorr s j / 10 ^ 218

/-- `f n`, written such that `n` is evaluated only once -/
def withNat (n : ℕ) (f : ℕ → Bool) : Bool := Nat.rec (f 0) (fun m _ => f (m + 1)) n

theorem withNat_eq (n : ℕ) (f : ℕ → Bool) : withNat n f = f n := by cases n <;> rfl

/-- the same for an integer -/
def withInt (z : ℤ) (f : ℤ → Bool) : Bool :=
  match z with
  | .ofNat n => withNat n fun m => f (.ofNat m)
  | .negSucc n => withNat n fun m => f (.negSucc m)

theorem withInt_eq (z : ℤ) (f : ℤ → Bool) : withInt z f = f z := by
  cases z with
  | ofNat n => exact withNat_eq n fun m => f (.ofNat m)
  | negSucc n => exact withNat_eq n fun m => f (.negSucc m)

/-- the smallest value of `q * g` for `g` between `-τ` and `G + τ` -/
def ffeLow (q G τ : ℤ) : ℤ := if q ≤ 0 then q * (G + τ) else -(q * τ)

/-- a lower bound for the difference of the correlations at phase 9 and `s`, times `10 ^ 28`, is positive -/
def ffeMargin (base c0 c1 c2 c3 : ℤ) : Bool :=
  withInt ((-194769) * c0 + 408343 * c1 + (-408398) * c2 + 195227 * c3) fun q0 =>
  withInt ((-255367) * c0 + 249171 * c1 + 250645 * c2 + (-259071) * c3) fun q1 =>
  withInt (408360 * c0 + 194438 * c1 + (-196224) * c2 + (-409783) * c3) fun q2 =>
  withInt (249438 * c0 + 257228 * c1 + 257747 * c2 + 250920 * c3) fun q3 =>
  withInt (10000000000000000 * c0 - ((-4795036091) * q0 + (-9998660980) * q1 + 10000000000 * q2 + 9738500436 * q3)) fun r0 =>
  withInt (10000000000000000 * c1 - (10000000000 * q0 + 9722114321 * q1 + 4740940734 * q2 + 10000000000 * q3)) fun r1 =>
  withInt (10000000000000000 * c2 - ((-9940933488) * q0 + 9708923299 * q1 + (-4764579689) * q2 + 9977698365 * q3)) fun r2 =>
  withInt (10000000000000000 * c3 - (4726725412 * q0 + (-10000000000) * q1 + (-9906849737) * q2 + 9671803209 * q3)) fun r3 =>
  decide (0 < 10000000000000000 * 1000000000000 * base + ffeLow q0 11811673628 100000 + ffeLow q1 5858493599 100000 + ffeLow q2 5285798234 100000 + ffeLow q3 6567160129 100000
    - (r0.natAbs + r1.natAbs + r2.natAbs + r3.natAbs + 40000000000000000))

/-- the correlation is larger at phase 9 than at phase `s` -/
def ffeCheck (s : ℕ) : Bool :=
  withNat (ffeSelf 9) fun a => withNat (ffeSelf s) fun b =>
  withNat (ffeCorr12 9 0) fun a0 => withNat (ffeCorr12 s 0) fun b0 =>
  withNat (ffeCorr12 9 1) fun a1 => withNat (ffeCorr12 s 1) fun b1 =>
  withNat (ffeCorr12 9 2) fun a2 => withNat (ffeCorr12 s 2) fun b2 =>
  withNat (ffeCorr12 9 3) fun a3 => withNat (ffeCorr12 s 3) fun b3 =>
  ffeMargin (a - b) (a0 - b0) (a1 - b1) (a2 - b2) (a3 - b3)

theorem ffeWit_lock : ∀ s < 127, s ≠ 9 → ffeCheck s = true := by
  decide +kernel

end Verif
