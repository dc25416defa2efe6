import Verif.Lemmas.SerList
import Verif.Spec.Modular
import Mathlib.Tactic.Ring

/-! The coefficients of the classical `Φ_5`, and that `Φ_5(j(q), j(q^5))` has no terms of order `≤ 0`.  (The lists of numbers
are generated; the kernel checks them.) -/

namespace EC

open SerList

/-- The coefficients of the classical modular polynomial `Φ_5`. -/
def phi5 (a b : ℕ) : ℤ :=
  match a, b with
  | 0, 0 => 141359947154721358697753474691071362751004672000
  | 0, 1 => 53274330803424425450420160273356509151232000
  | 0, 2 => 6692500042627997708487149415015068467200
  | 0, 3 => 280244777828439527804321565297868800
  | 0, 4 => 1284733132841424456253440
  | 0, 5 => 1963211489280
  | 1, 1 => -264073457076620596259715790247978782949376
  | 1, 2 => 36554736583949629295706472332656640000
  | 1, 3 => -192457934618928299655108231168000
  | 1, 4 => 128541798906828816384000
  | 1, 5 => -246683410950
  | 2, 2 => 5110941777552418083110765199360000
  | 2, 3 => 26898488858380731577417728000
  | 2, 4 => 383083609779811215375
  | 2, 5 => 2028551200
  | 3, 3 => -441206965512914835246100
  | 3, 4 => 107878928185336800
  | 3, 5 => -4550940
  | 4, 4 => 1665999364600
  | 4, 5 => 3720
  | 5, 5 => -1
  | _, _ => 0

namespace Phi5

def e4 : List ℤ := [1, 240, 2160, 6720, 17520, 30240, 60480, 82560, 140400, 181680, 272160, 319680, 490560, 527520,
    743040, 846720, 1123440, 1179360, 1635120, 1646400, 2207520, 2311680, 2877120, 2920320, 3931200, 3780240,
    4747680, 4905600, 6026880, 5853600, 7620480]

/-- The powers of `q j(q)` up to `q^30`. -/
def u (n : ℕ) : List ℤ :=
  match n with
  | 0 => [1]
  | 1 => [1, 744, 196884, 21493760, 864299970, 20245856256, 333202640600, 4252023300096, 44656994071935,
    401490886656000, 3176440229784420, 22567393309593600, 146211911499519294, 874313719685775360,
    4872010111798142520, 25497827389410525184, 126142916465781843075, 593121772421445058560, 2662842413150775245160,
    11459912788444786513920, 47438786801234168813250, 189449976248893390028800, 731811377318137519245696,
    2740630712513624654929920, 9971041659937182693533820, 35307453186561427099877376, 121883284330422510433351500,
    410789960190307909157638144, 1353563541518646878675077500, 4365689224858876634610401280,
    13798375834642999925542288376]
  | 2 => [1, 1488, 947304, 335950912, 72474624276, 9790124955552, 833107628914688, 45630592148400000,
    1754954450906393538, 51062104386000089648, 1186840963302480101376, 22924552119951492244800,
    378933532779364657975000, 5481478988351560594569312, 70616207351941998656790528, 821587169931662173951346048,
    8731416390484953369076348287, 85561752189086226217498950000, 779216894907189588389733990400,
    6639259380588045102880924011648, 53228748703857824920026866248548, 403537650483372237533603281668000,
    2905378790780289020509468531200000, 19940834289370215986867448575244288, 130904739541057036990825965425530174,
    824379276447343536965616762446991552, 4993548264438923727684347490702655488,
    29163197087792367078749478177135000000, 164564619083352736660743320276865312312,
    898994450260777504089903630990023565504, 4762815177115990393615409885368954798080]
  | 3 => [1, 2232, 2251260, 1355202240, 541778118390, 151522053809760, 30456116651640888, 4460775211418664960,
    479919718908048515625, 38292247221915373896560, 2309356967925215526546564, 108570959012192293978767360,
    4111854826236389868361040550, 129188102231685453658245000000, 3451222701364120616206246244040,
    80000711916593713087525196857344, 1636125422605300909162662257683080, 29930738294754338819873880432077640,
    495427438400477194474344562635312500, 7492061529326968725838271586788966400,
    104363741584625820255997815135162834180, 1348610478924857839682983887500464639968,
    16265250365614815641264610570137249523000, 184069353321169159317514430974594560000000,
    1963703638416301777541209311167044877509185, 19830567500724338167369652941015464346727568,
    190261367620540610818204552270178597397173136, 1739979544520276579590069883806787749619957760,
    15212200884952760784522187446130244727841406250, 127480927382288734423033564022214144117218687040,
    1026468583221179063997908106910319652537541879440]
  | 4 => [1, 2976, 4108752, 3491078528, 2042124031080, 871760017238976, 280975645349487680, 69814870794494454528,
    13548292908508926640404, 2070614744577304062500000, 250743434761056783247994784, 24206053275768758414174711424,
    1878532348907261963806903367680, 118636261570074642273603870722496, 6194260726355953504039128750000000,
    272066421453663378957241977436681472, 10224999624085284917525208212028271554,
    333996264565622578644628012811682704640, 9614682095804113940165594668604095645232,
    246891333291864810415330467387101250000000, 5715084944716212024745386510534601674276864,
    120350735664843152574854993799420045760384640, 2323971195148121634158257356219309862960043328,
    41436030926054527473794159658447881615437449984, 686327155129610300451796298897868679128984375000,
    10617389217043048543678914184263287171112292463520, 154134790758345426150190605490443199545052664881248,
    2108710447954452506059234060290129819592542159448576, 27290405497229962102466946364651029465251375184519168,
    335240595878773317938135487741430125400303265625000000, 3920932830885475866837288085656511807751623092585850240]
  | 5 => [1, 3720, 6519780, 7155410560, 5513263714410, 3169342733223744, 1410274829033621720, 497490794115341222400,
    141384635685281070815715, 32731186323729226503006880, 6220499222807715996093946884,
    975962735013814393979460660480, 126981174941748628416779515009470, 13759894158544053972304429268582400,
    1248054699122833586644281291949140120, 95363483546654618685907476250021493760,
    6188806952731542251282493307774350762465, 344444510936602109526053160393596961807120,
    16615499229569786065041208889103936501815200, 702193548580426257916355083672585061778119040,
    26269740927360572189820592933435295786997112470, 878450236771812415983203609752419288676140974080,
    26490336509616435985737878488957942702568062525200, 726174897844972562844846761728182527849815071459840,
    18226228910207334133942667455802113028881673139859230, 421546454887930441025624267589990634869117442120856256,
    9036174827647170218367650184168232571369114393701020900,
    180447861510525451030065148869932406177074287578967069440,
    3372525763954785313813486815484276448674229592780829679280,
    59238355724303887004944939515665109745198671985610882088960,
    981582340709460635618990686416198922318210592772696483890600]
  | 6 => [1, 4464, 9484344, 12760029120, 12201350623740, 8823366817757280, 5013246606424410816,
    2295546572125509236352, 862211597358918576367350, 269034737155856396498593360, 70386756492326943669430951008,
    15546761770012010226563378890176, 2914084978135975344718390634641464, 465411174716862362050317281263214880,
    63551423925868335740476121540133273600, 7443316056946753241817443463931536693888,
    750340508336336438140939632484867676660265, 65366530993356271739681910939598996400292720,
    4945105259497856256871486150148750094016250480, 326762009653177727611983516034493012049101452800,
    18983581854779135205360615886913229409624219014276, 976555266127220572598589048704213499033155110066080,
    44808577862505359738606377491125499078683704239194112, 1847215382897142087155276522469700751205841215089452800,
    68896538007210437644701886985318647450055841313318675110,
    2340250976680730306043161531308861469388697255953331100448,
    72841108427810943888088824924781835942024587186080627326784,
    2089280982833950722834159227763198960316272749065679144257472,
    55510722991734854711097487253219185304096431000501013751938760,
    1372703911870670842986471711211024211387682480808539390693285120,
    31730551850027440424752476737433844807914665902683280725343666176]
  | _ => []

/-- The powers of `q^5 j(q^5)` up to `q^30`. -/
def w (n : ℕ) : List ℤ :=
  match n with
  | 0 => [1]
  | 1 => [1, 0, 0, 0, 0, 744, 0, 0, 0, 0, 196884, 0, 0, 0, 0, 21493760, 0, 0, 0, 0, 864299970, 0, 0, 0, 0,
    20245856256, 0, 0, 0, 0, 333202640600]
  | 2 => [1, 0, 0, 0, 0, 1488, 0, 0, 0, 0, 947304, 0, 0, 0, 0, 335950912, 0, 0, 0, 0, 72474624276, 0, 0, 0, 0,
    9790124955552, 0, 0, 0, 0, 833107628914688]
  | 3 => [1, 0, 0, 0, 0, 2232, 0, 0, 0, 0, 2251260, 0, 0, 0, 0, 1355202240, 0, 0, 0, 0, 541778118390, 0, 0, 0, 0,
    151522053809760, 0, 0, 0, 0, 30456116651640888]
  | 4 => [1, 0, 0, 0, 0, 2976, 0, 0, 0, 0, 4108752, 0, 0, 0, 0, 3491078528, 0, 0, 0, 0, 2042124031080, 0, 0, 0, 0,
    871760017238976, 0, 0, 0, 0, 280975645349487680]
  | 5 => [1, 0, 0, 0, 0, 3720, 0, 0, 0, 0, 6519780, 0, 0, 0, 0, 7155410560, 0, 0, 0, 0, 5513263714410, 0, 0, 0, 0,
    3169342733223744, 0, 0, 0, 0, 1410274829033621720]
  | 6 => [1, 0, 0, 0, 0, 4464, 0, 0, 0, 0, 9484344, 0, 0, 0, 0, 12760029120, 0, 0, 0, 0, 12201350623740, 0, 0, 0, 0,
    8823366817757280, 0, 0, 0, 0, 5013246606424410816]
  | _ => []

/-- The terms `c X^i Y^j` of `Φ_5`. -/
def terms : List (ℕ × ℕ × ℤ) :=
  [(6, 0, 1), (0, 6, 1), (0, 0, 141359947154721358697753474691071362751004672000), (0, 1,
    53274330803424425450420160273356509151232000), (1, 0, 53274330803424425450420160273356509151232000), (0, 2,
    6692500042627997708487149415015068467200), (2, 0, 6692500042627997708487149415015068467200), (0, 3,
    280244777828439527804321565297868800), (3, 0, 280244777828439527804321565297868800), (0, 4,
    1284733132841424456253440), (4, 0, 1284733132841424456253440), (0, 5, 1963211489280), (5, 0, 1963211489280), (1,
    1, -264073457076620596259715790247978782949376), (1, 2, 36554736583949629295706472332656640000), (2, 1,
    36554736583949629295706472332656640000), (1, 3, -192457934618928299655108231168000), (3, 1,
    -192457934618928299655108231168000), (1, 4, 128541798906828816384000), (4, 1, 128541798906828816384000), (1, 5,
    -246683410950), (5, 1, -246683410950), (2, 2, 5110941777552418083110765199360000), (2, 3,
    26898488858380731577417728000), (3, 2, 26898488858380731577417728000), (2, 4, 383083609779811215375), (4, 2,
    383083609779811215375), (2, 5, 2028551200), (5, 2, 2028551200), (3, 3, -441206965512914835246100), (3, 4,
    107878928185336800), (4, 3, 107878928185336800), (3, 5, -4550940), (5, 3, -4550940), (4, 4, 1665999364600), (4,
    5, 3720), (5, 4, 3720), (5, 5, -1)]

theorem rep_u1 : Rep 31 (u 1) seriesJ1 := by
  refine rep_J1 (E := e4) ?_ ?_
  · decide +kernel
  · decide +kernel

theorem rep_u0 : Rep 31 (u 0) (seriesJ1 ^ 0) := by rw [pow_zero]; exact rep_one 31
theorem rep_w0 : Rep 31 (w 0) (psPow 5 seriesJ1 ^ 0) := by rw [pow_zero]; exact rep_one 31
theorem rep_u1' : Rep 31 (u 1) (seriesJ1 ^ 1) := by rw [pow_one]; exact rep_u1
theorem rep_w1 : Rep 31 (w 1) (psPow 5 seriesJ1) := by
  have h : spread 5 31 (u 1) = w 1 := by decide +kernel
  rw [← h]; exact rep_u1.spread
theorem rep_w1' : Rep 31 (w 1) (psPow 5 seriesJ1 ^ 1) := by rw [pow_one]; exact rep_w1
theorem rep_u2 : Rep 31 (u 2) (seriesJ1 ^ 2) := by
  have h : mulT 31 (u 1) (u 1) = u 2 := by decide +kernel
  have := rep_u1'.mul rep_u1
  rwa [h, ← pow_succ] at this
theorem rep_w2 : Rep 31 (w 2) (psPow 5 seriesJ1 ^ 2) := by
  have h : mulT 31 (w 1) (w 1) = w 2 := by decide +kernel
  have := rep_w1'.mul rep_w1
  rwa [h, ← pow_succ] at this
theorem rep_u3 : Rep 31 (u 3) (seriesJ1 ^ 3) := by
  have h : mulT 31 (u 2) (u 1) = u 3 := by decide +kernel
  have := rep_u2.mul rep_u1
  rwa [h, ← pow_succ] at this
theorem rep_w3 : Rep 31 (w 3) (psPow 5 seriesJ1 ^ 3) := by
  have h : mulT 31 (w 2) (w 1) = w 3 := by decide +kernel
  have := rep_w2.mul rep_w1
  rwa [h, ← pow_succ] at this
theorem rep_u4 : Rep 31 (u 4) (seriesJ1 ^ 4) := by
  have h : mulT 31 (u 3) (u 1) = u 4 := by decide +kernel
  have := rep_u3.mul rep_u1
  rwa [h, ← pow_succ] at this
theorem rep_w4 : Rep 31 (w 4) (psPow 5 seriesJ1 ^ 4) := by
  have h : mulT 31 (w 3) (w 1) = w 4 := by decide +kernel
  have := rep_w3.mul rep_w1
  rwa [h, ← pow_succ] at this
theorem rep_u5 : Rep 31 (u 5) (seriesJ1 ^ 5) := by
  have h : mulT 31 (u 4) (u 1) = u 5 := by decide +kernel
  have := rep_u4.mul rep_u1
  rwa [h, ← pow_succ] at this
theorem rep_w5 : Rep 31 (w 5) (psPow 5 seriesJ1 ^ 5) := by
  have h : mulT 31 (w 4) (w 1) = w 5 := by decide +kernel
  have := rep_w4.mul rep_w1
  rwa [h, ← pow_succ] at this
theorem rep_u6 : Rep 31 (u 6) (seriesJ1 ^ 6) := by
  have h : mulT 31 (u 5) (u 1) = u 6 := by decide +kernel
  have := rep_u5.mul rep_u1
  rwa [h, ← pow_succ] at this
theorem rep_w6 : Rep 31 (w 6) (psPow 5 seriesJ1 ^ 6) := by
  have h : mulT 31 (w 5) (w 1) = w 6 := by decide +kernel
  have := rep_w5.mul rep_w1
  rwa [h, ← pow_succ] at this

theorem termSum_zero : (termSum 5 30 u w terms).all (· == 0) = true := by decide +kernel

theorem rep_u : ∀ i ≤ 6, Rep 31 (u i) (seriesJ1 ^ i) := by
  intro i hi
  interval_cases i
  exacts [rep_u0, rep_u1', rep_u2, rep_u3, rep_u4, rep_u5, rep_u6]

theorem rep_w : ∀ i ≤ 6, Rep 31 (w i) (psPow 5 seriesJ1 ^ i) := by
  intro i hi
  interval_cases i
  exacts [rep_w0, rep_w1', rep_w2, rep_w3, rep_w4, rep_w5, rep_w6]

theorem terms_bound : ∀ t ∈ terms, t.1 + 5 * t.2.1 ≤ 30 ∧ t.1 ≤ 6 ∧ t.2.1 ≤ 6 := by decide +kernel

theorem modularAt_terms {R : Type*} [CommRing R] (X Y : R) :
    modularAt 5 phi5 X Y = (terms.map fun t => t.2.2 • (X ^ t.1 * Y ^ t.2.1)).sum := by
  have e0 : Finset.Ico (0 + 1) (5 + 1) = {1, 2, 3, 4, 5} := rfl
  have e1 : Finset.Ico (1 + 1) (5 + 1) = {2, 3, 4, 5} := rfl
  have e2 : Finset.Ico (2 + 1) (5 + 1) = {3, 4, 5} := rfl
  have e3 : Finset.Ico (3 + 1) (5 + 1) = {4, 5} := rfl
  have e4 : Finset.Ico (4 + 1) (5 + 1) = {5} := rfl
  have e5 : Finset.Ico (5 + 1) (5 + 1) = ∅ := rfl
  simp only [modularAt, Finset.sum_range_succ, Finset.sum_range_zero, e0, e1, e2, e3, e4, e5, Finset.sum_empty,
    Finset.sum_singleton, Finset.sum_insert (show (1 : ℕ) ∉ ({2, 3, 4, 5} : Finset ℕ) by decide), Finset.sum_insert
    (show (2 : ℕ) ∉ ({3, 4, 5} : Finset ℕ) by decide), Finset.sum_insert (show (3 : ℕ) ∉ ({4, 5} : Finset ℕ) by
    decide), Finset.sum_insert (show (4 : ℕ) ∉ ({5} : Finset ℕ) by decide), phi5, terms, List.map_cons,
    List.map_nil, List.sum_cons, List.sum_nil, zsmul_eq_mul]
  push_cast
  ring

end Phi5

theorem phi5_lowOrder : ∀ n ≤ 0, (modularAt 5 phi5 jLaurent (qPow 5 Nat.prime_five.pos jLaurent)).coeff n = 0 :=
  lowOrder_of_termSum (M := 30) Nat.prime_five.pos Phi5.terms
    (fun t ht => ⟨(Phi5.terms_bound t ht).1, Phi5.rep_u _ (Phi5.terms_bound t ht).2.1,
      Phi5.rep_w _ (Phi5.terms_bound t ht).2.2⟩) Phi5.termSum_zero (Phi5.modularAt_terms _ _)

end EC
