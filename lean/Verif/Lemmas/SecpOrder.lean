import Verif.Lemmas.Res
import Verif.Model.EllipticCurve

/-! The multiple `(n - 1) G` on secp256k1, for the known group order `n`, as computed by the model of `multiply_scalar`.
The loop is cut into blocks of at most 8 iterations, each of which the kernel evaluates separately. -/

namespace EC

/-- `k` iterations of the loop of `multiply_scalar`. -/
def mulSteps (ec : EllipticCurve) : Nat → Int → ECPoint → ECPoint → Res (Int × ECPoint × ECPoint)
  | 0, e, b, r => .ok (e, b, r)
  | k + 1, e, b, r =>
    if e > 1 then do
      let r' ← if e % 2 = 1 then ec.plus r b else .ok r
      let b' ← ec.plus b b
      mulSteps ec k (e.tdiv 2) b' r'
    else .timeout

theorem mulLoop_of_steps (ec : EllipticCurve) : ∀ (k : Nat) (e e' : Int) (b r b' r' : ECPoint),
    mulSteps ec k e b r = .ok (e', b', r') → ec.mulLoop e b r = ec.mulLoop e' b' r' := by
  intro k
  induction k with
  | zero =>
    intro e e' b r b' r' h
    simp only [mulSteps, Res.ok.injEq, Prod.mk.injEq] at h
    obtain ⟨rfl, rfl, rfl⟩ := h; rfl
  | succ k ih =>
    intro e e' b r b' r' h
    unfold mulSteps at h
    rw [EllipticCurve.mulLoop]
    by_cases he : e > 1
    · rw [if_pos he] at h ⊢
      by_cases hp : e % 2 = 1
      · simp only [if_pos hp] at h ⊢
        obtain ⟨r1, hr1, h⟩ := Res.bind_eq_ok.1 h
        obtain ⟨b1, hb1, h⟩ := Res.bind_eq_ok.1 h
        rw [hr1, Res.ok_bind, hb1, Res.ok_bind]
        exact ih _ _ _ _ _ _ h
      · simp only [if_neg hp, Res.ok_bind] at h ⊢
        obtain ⟨b1, hb1, h⟩ := Res.bind_eq_ok.1 h
        rw [hb1, Res.ok_bind]
        exact ih _ _ _ _ _ _ h
    · rw [if_neg he] at h; cases h

/-- The curve secp256k1. -/
def secpCurve : EllipticCurve := EllipticCurve.newRaw 0 7 115792089237316195423570985008687907853269984665640564039457584007908834671663

theorem secp_ec : Secp256k1.new.ec = secpCurve := by decide +kernel

theorem secp_g : Secp256k1.new.g = ⟨55066263022277343669578718895168534326250603453777594175500187360389116729240, 32670510020758816978083085130507043184471273380659243275938904335757337482424, 1⟩ := by decide +kernel

theorem secp_step0 : mulSteps secpCurve 8 115792089237316195423570985008687907852837564279074904382605163141518161494336
    ⟨55066263022277343669578718895168534326250603453777594175500187360389116729240, 32670510020758816978083085130507043184471273380659243275938904335757337482424, 1⟩
    ECPoint.infinity = .ok (452312848583266388373324160190187140050146735465136345244551418521555318337,
    ⟨59030624050581421406270513075794029219285200067000787157698366092408912155912, 8128656248049033031875480515138402531865803579197128279783442554673902546095, 1⟩,
    ⟨86454928033100054822938644242727206101601557724291916072342392316125160730507, 41929975541376036990359335647717381527212342035893043668288666074313354583455, 1⟩) := by decide +kernel

theorem secp_step1 : mulSteps secpCurve 8 452312848583266388373324160190187140050146735465136345244551418521555318337
    ⟨59030624050581421406270513075794029219285200067000787157698366092408912155912, 8128656248049033031875480515138402531865803579197128279783442554673902546095, 1⟩
    ⟨86454928033100054822938644242727206101601557724291916072342392316125160730507, 41929975541376036990359335647717381527212342035893043668288666074313354583455, 1⟩ = .ok (1766847064778384329583297500742918515820885685410688848611528978599825462,
    ⟨24533671068980092868630552346995129420983823672304585196401986911541584152128, 2209357222459695347071765155987393997305194371900031813817445740077485301225, 1⟩,
    ⟨106570950919481823827772767310756072943747871586007558889556639366050825239388, 66256319758602444109390412815769765521254144153601976107145462899607553389693, 1⟩) := by decide +kernel

theorem secp_step2 : mulSteps secpCurve 8 1766847064778384329583297500742918515820885685410688848611528978599825462
    ⟨24533671068980092868630552346995129420983823672304585196401986911541584152128, 2209357222459695347071765155987393997305194371900031813817445740077485301225, 1⟩
    ⟨106570950919481823827772767310756072943747871586007558889556639366050825239388, 66256319758602444109390412815769765521254144153601976107145462899607553389693, 1⟩ = .ok (6901746346790563787434755862277025452425334708635503314888785072655568,
    ⟨51670963786757573841189746283202124387362261809800652891978209018731111316698, 68257551575553566084241009552849606333781498777275567535225153774080710909791, 1⟩,
    ⟨21313085478167704019349195103133982605811287478290790674397349176081024077248, 89360785925528095989930519434810944837513549629049748780708795855787463970660, 1⟩) := by decide +kernel

theorem secp_step3 : mulSteps secpCurve 8 6901746346790563787434755862277025452425334708635503314888785072655568
    ⟨51670963786757573841189746283202124387362261809800652891978209018731111316698, 68257551575553566084241009552849606333781498777275567535225153774080710909791, 1⟩
    ⟨21313085478167704019349195103133982605811287478290790674397349176081024077248, 89360785925528095989930519434810944837513549629049748780708795855787463970660, 1⟩ = .ok (26959946667150639794667015087019630673536463705607434823784316690060,
    ⟨7263983490427117408129518121638485560698559702481803384958991237905117384112, 93109094002033366773627505914545361927166820241279828474630961892312310241801, 1⟩,
    ⟨11519813831728899567456599703067667879752491832634288545146452974702543898242, 103218123594136887835824885599371848890322927528600499820365822016751052372136, 1⟩) := by decide +kernel

theorem secp_step4 : mulSteps secpCurve 8 26959946667150639794667015087019630673536463705607434823784316690060
    ⟨7263983490427117408129518121638485560698559702481803384958991237905117384112, 93109094002033366773627505914545361927166820241279828474630961892312310241801, 1⟩
    ⟨11519813831728899567456599703067667879752491832634288545146452974702543898242, 103218123594136887835824885599371848890322927528600499820365822016751052372136, 1⟩ = .ok (105312291668557186697918027683670432318501811350029042280407487070,
    ⟨115301655840403608332148854465368444683257224081574702572138639602380667382125, 103799472776126890762485670055583971987299536955028941653349419016168013365384, 1⟩,
    ⟨70388781792501799037103630740873064566266068925692353243013086925628208477619, 66779167579394606936957035511144289023095788419599297519304006943260373648114, 1⟩) := by decide +kernel

theorem secp_step5 : mulSteps secpCurve 8 105312291668557186697918027683670432318501811350029042280407487070
    ⟨115301655840403608332148854465368444683257224081574702572138639602380667382125, 103799472776126890762485670055583971987299536955028941653349419016168013365384, 1⟩
    ⟨70388781792501799037103630740873064566266068925692353243013086925628208477619, 66779167579394606936957035511144289023095788419599297519304006943260373648114, 1⟩ = .ok (411376139330301510538742295639337626244147700586050946407841746,
    ⟨37796942232071066358676457518924870482193007026528914004372298991835746383808, 41500641220791808004786750540350768710904110215016898096683828744807363604936, 1⟩,
    ⟨106857206339245140677294754050369882227152225691421969932474876410114066739762, 6543911649723266048843431176002965520807849247285503720572011681789207376284, 1⟩) := by decide +kernel

theorem secp_step6 : mulSteps secpCurve 8 411376139330301510538742295639337626244147700586050946407841746
    ⟨37796942232071066358676457518924870482193007026528914004372298991835746383808, 41500641220791808004786750540350768710904110215016898096683828744807363604936, 1⟩
    ⟨106857206339245140677294754050369882227152225691421969932474876410114066739762, 6543911649723266048843431176002965520807849247285503720572011681789207376284, 1⟩ = .ok (1606938044258990275541962092341162602516201955414261509405631,
    ⟨25497240280963516313937320941859063956353887664759333529694971679324342859874, 18198385112262447554198951719878713582193194360950043848907411919888800699475, 1⟩,
    ⟨36511922580032603806187760222511355393068738403744578498204654689421465390767, 29560698611802338360830834888986454774351491336767560346174589234402766145712, 1⟩) := by decide +kernel

theorem secp_step7 : mulSteps secpCurve 8 1606938044258990275541962092341162602516201955414261509405631
    ⟨25497240280963516313937320941859063956353887664759333529694971679324342859874, 18198385112262447554198951719878713582193194360950043848907411919888800699475, 1⟩
    ⟨36511922580032603806187760222511355393068738403744578498204654689421465390767, 29560698611802338360830834888986454774351491336767560346174589234402766145712, 1⟩ = .ok (6277101735386680763835789423207666416078913888336959021115,
    ⟨23129491278950567785970148376500648032717531886785241126168611397589814798013, 39307099057880941662675806615359097347682728603444928455093651353540932186784, 1⟩,
    ⟨64262392392541356349814096356282065114794590428049269605580862013960545802113, 73973411734225106293997054293580718392158036105953490205663830403167713357565, 1⟩) := by decide +kernel

theorem secp_step8 : mulSteps secpCurve 8 6277101735386680763835789423207666416078913888336959021115
    ⟨23129491278950567785970148376500648032717531886785241126168611397589814798013, 39307099057880941662675806615359097347682728603444928455093651353540932186784, 1⟩
    ⟨64262392392541356349814096356282065114794590428049269605580862013960545802113, 73973411734225106293997054293580718392158036105953490205663830403167713357565, 1⟩ = .ok (24519928653854221733733552434404946937808257376316246176,
    ⟨4199350326672760747807816527418159685216655440503240677878553304602602121738, 37834176166477149356292507688627259926034564110824553771704962901036071708041, 1⟩,
    ⟨64858669620327721159432046486081363503599874502434441342993323157374916586901, 94893507221537684321612616679233314486869843265278851094018596249217670184146, 1⟩) := by decide +kernel

theorem secp_step9 : mulSteps secpCurve 8 24519928653854221733733552434404946937808257376316246176
    ⟨4199350326672760747807816527418159685216655440503240677878553304602602121738, 37834176166477149356292507688627259926034564110824553771704962901036071708041, 1⟩
    ⟨64858669620327721159432046486081363503599874502434441342993323157374916586901, 94893507221537684321612616679233314486869843265278851094018596249217670184146, 1⟩ = .ok (95780971304118053647396689196894323975813505376235336,
    ⟨103585811642593135420456399622448891166663363501464111582343873522977792850477, 31409815155472435338582344935230131320197144774427706287861757740924066421722, 1⟩,
    ⟨45871054582941903348199890451417708586204118188927879681113827805570418829454, 34826590793778726941027791846297573993254376310630912638372138180249225658071, 1⟩) := by decide +kernel

theorem secp_step10 : mulSteps secpCurve 8 95780971304118053647396689196894323975813505376235336
    ⟨103585811642593135420456399622448891166663363501464111582343873522977792850477, 31409815155472435338582344935230131320197144774427706287861757740924066421722, 1⟩
    ⟨45871054582941903348199890451417708586204118188927879681113827805570418829454, 34826590793778726941027791846297573993254376310630912638372138180249225658071, 1⟩ = .ok (374144419156711147060143317175368453030521505375919,
    ⟨15033179896439470858126247808641765484544705738074160218957951164394937620308, 34117244282055289120898203738790815580918088000686828227920818069382230202610, 1⟩,
    ⟨92205227119847053815789080751194979178282573307486795686238478012904534590910, 36791874532847797566754807340721648496961218034625926347160875576184700972761, 1⟩) := by decide +kernel

theorem secp_step11 : mulSteps secpCurve 8 374144419156711147060143317175368453030521505375919
    ⟨15033179896439470858126247808641765484544705738074160218957951164394937620308, 34117244282055289120898203738790815580918088000686828227920818069382230202610, 1⟩
    ⟨92205227119847053815789080751194979178282573307486795686238478012904534590910, 36791874532847797566754807340721648496961218034625926347160875576184700972761, 1⟩ = .ok (1461501637330902918203684832716283019650474630374,
    ⟨115183067000797961901920784023024616254245272923307973061240480176353201301430, 49763971281659542105744668679966078286699279184665337082856648066049033156975, 1⟩,
    ⟨30458597309266933907134138245216617620554761114735020423655361674995572225042, 86716653018626076448716311167658697349665933876144345829950039838854278976669, 1⟩) := by decide +kernel

theorem secp_step12 : mulSteps secpCurve 8 1461501637330902918203684832716283019650474630374
    ⟨115183067000797961901920784023024616254245272923307973061240480176353201301430, 49763971281659542105744668679966078286699279184665337082856648066049033156975, 1⟩
    ⟨30458597309266933907134138245216617620554761114735020423655361674995572225042, 86716653018626076448716311167658697349665933876144345829950039838854278976669, 1⟩ = .ok (5708990770823839524233143877797980545509666524,
    ⟨90110562832831649967185144230038867070402237425213645393423897349775852026001, 62079424087973467789382713581435573708404480254567931314506333392316481045699, 1⟩,
    ⟨72741970386475514466047912692277309983439954032228133622535649823171654296323, 25525733722584489859947656657459762883106488045867206311669979604745439575405, 1⟩) := by decide +kernel

theorem secp_step13 : mulSteps secpCurve 8 5708990770823839524233143877797980545509666524
    ⟨90110562832831649967185144230038867070402237425213645393423897349775852026001, 62079424087973467789382713581435573708404480254567931314506333392316481045699, 1⟩
    ⟨72741970386475514466047912692277309983439954032228133622535649823171654296323, 25525733722584489859947656657459762883106488045867206311669979604745439575405, 1⟩ = .ok (22300745198530623141535718272648361505897134,
    ⟨83611758343266467712438158213251624839283837284463888705796077990149381123587, 18101124850041158815009009485735144088925930424123803647507665853537289369319, 1⟩,
    ⟨50827106064552158936804187741540392881916516409986122510793083443268342337299, 87499677580879801523030263681462556564053447608961451321723180307779070598176, 1⟩) := by decide +kernel

theorem secp_step14 : mulSteps secpCurve 8 22300745198530623141535718272648361505897134
    ⟨83611758343266467712438158213251624839283837284463888705796077990149381123587, 18101124850041158815009009485735144088925930424123803647507665853537289369319, 1⟩
    ⟨50827106064552158936804187741540392881916516409986122510793083443268342337299, 87499677580879801523030263681462556564053447608961451321723180307779070598176, 1⟩ = .ok (87112285931760246646623899502532662132410,
    ⟨73729489189146206306669255701359614973467519172738994441001234600131693731952, 52215583774525796109567946288556659634043653399932078971590626905269875474081, 1⟩,
    ⟨78802495887199436139276564853506569323525912822473178154236816901546152985799, 61589458644804237006269674880406818623743860746966360651478975344515921605347, 1⟩) := by decide +kernel

theorem secp_step15 : mulSteps secpCurve 8 87112285931760246646623899502532662132410
    ⟨73729489189146206306669255701359614973467519172738994441001234600131693731952, 52215583774525796109567946288556659634043653399932078971590626905269875474081, 1⟩
    ⟨78802495887199436139276564853506569323525912822473178154236816901546152985799, 61589458644804237006269674880406818623743860746966360651478975344515921605347, 1⟩ = .ok (340282366920938463463374607431768211454,
    ⟨64865771952738249789114440545196421582918768733599534045195125031385885360346, 46211216742671250426576585530459394900178019437443360579906162037052661563266, 1⟩,
    ⟨27142271679519870958826865595444874671779675120640440042368207892778346760675, 34750715026931096249280596937251973555268956658871794071142559426912104743373, 1⟩) := by decide +kernel

theorem secp_step16 : mulSteps secpCurve 8 340282366920938463463374607431768211454
    ⟨64865771952738249789114440545196421582918768733599534045195125031385885360346, 46211216742671250426576585530459394900178019437443360579906162037052661563266, 1⟩
    ⟨27142271679519870958826865595444874671779675120640440042368207892778346760675, 34750715026931096249280596937251973555268956658871794071142559426912104743373, 1⟩ = .ok (1329227995784915872903807060280344575,
    ⟨63325528419660284613648700910995098077763772416467869706013046991065094742686, 108393323332799615882600625899672562866564791265938552990560624893577369108811, 1⟩,
    ⟨38668444304937996250985754062663757950169644928847568840008976285491273895750, 94819209278664585504485160658335532508924890357953200239952985960394486097725, 1⟩) := by decide +kernel

theorem secp_step17 : mulSteps secpCurve 8 1329227995784915872903807060280344575
    ⟨63325528419660284613648700910995098077763772416467869706013046991065094742686, 108393323332799615882600625899672562866564791265938552990560624893577369108811, 1⟩
    ⟨38668444304937996250985754062663757950169644928847568840008976285491273895750, 94819209278664585504485160658335532508924890357953200239952985960394486097725, 1⟩ = .ok (5192296858534827628530496329220095,
    ⟨82443941766934163206572457262087615792206098199618204196957878539943664124143, 2933900802655320228371872386727285565009607891164205160519475145640485435973, 1⟩,
    ⟨13476595264910386690487859242785986644586635795923857112499128189942526031970, 16777195034901199328918970145181842282423653008616689803600644918001352134118, 1⟩) := by decide +kernel

theorem secp_step18 : mulSteps secpCurve 8 5192296858534827628530496329220095
    ⟨82443941766934163206572457262087615792206098199618204196957878539943664124143, 2933900802655320228371872386727285565009607891164205160519475145640485435973, 1⟩
    ⟨13476595264910386690487859242785986644586635795923857112499128189942526031970, 16777195034901199328918970145181842282423653008616689803600644918001352134118, 1⟩ = .ok (20282409603651670423947251286015,
    ⟨22748028221779319076176510624118970842784515483405130895360428655102883872093, 45475484805375289014292969224159029645777915241785857295305535555664117202052, 1⟩,
    ⟨6124757759860532877029907179180109047315711914091525141880388959280690543912, 68766672526283452377112951465534601552160059990662928503743608759668733692643, 1⟩) := by decide +kernel

theorem secp_step19 : mulSteps secpCurve 8 20282409603651670423947251286015
    ⟨22748028221779319076176510624118970842784515483405130895360428655102883872093, 45475484805375289014292969224159029645777915241785857295305535555664117202052, 1⟩
    ⟨6124757759860532877029907179180109047315711914091525141880388959280690543912, 68766672526283452377112951465534601552160059990662928503743608759668733692643, 1⟩ = .ok (79228162514264337593543950335,
    ⟨70661691742434068036519986667419907196041281127668848645928138120846244813005, 100286785047006832236729389681182172543048508833941702006321829459516874054045, 1⟩,
    ⟨76103156482949057162353875336965795531294015418128065519292998810935949182251, 63910686184477706380850683461580382726458349792471217537241451554846854798937, 1⟩) := by decide +kernel

theorem secp_step20 : mulSteps secpCurve 8 79228162514264337593543950335
    ⟨70661691742434068036519986667419907196041281127668848645928138120846244813005, 100286785047006832236729389681182172543048508833941702006321829459516874054045, 1⟩
    ⟨76103156482949057162353875336965795531294015418128065519292998810935949182251, 63910686184477706380850683461580382726458349792471217537241451554846854798937, 1⟩ = .ok (309485009821345068724781055,
    ⟨74841650891382527078449938271109455202772530131693735678356618476847598486118, 29242638042721994709047470454581660554102402946865770918554005639977770323656, 1⟩,
    ⟨107526709442353056712431361913997825193759073225256249779408979160587312859393, 66075418366960851563879167842072184752432731873685691108005348507112524269626, 1⟩) := by decide +kernel

theorem secp_step21 : mulSteps secpCurve 8 309485009821345068724781055
    ⟨74841650891382527078449938271109455202772530131693735678356618476847598486118, 29242638042721994709047470454581660554102402946865770918554005639977770323656, 1⟩
    ⟨107526709442353056712431361913997825193759073225256249779408979160587312859393, 66075418366960851563879167842072184752432731873685691108005348507112524269626, 1⟩ = .ok (1208925819614629174706175,
    ⟨4142520438525914541011842624208056062406705649998025173845082041682105009068, 87900869236804138087371702825961176259461360124819616238035200569139627100447, 1⟩,
    ⟨49292913039471269478813354679976175870098971696127296668597210599401190314326, 101519951489727801700239687146326111304620331539779714428632670531227458937448, 1⟩) := by decide +kernel

theorem secp_step22 : mulSteps secpCurve 8 1208925819614629174706175
    ⟨4142520438525914541011842624208056062406705649998025173845082041682105009068, 87900869236804138087371702825961176259461360124819616238035200569139627100447, 1⟩
    ⟨49292913039471269478813354679976175870098971696127296668597210599401190314326, 101519951489727801700239687146326111304620331539779714428632670531227458937448, 1⟩ = .ok (4722366482869645213695,
    ⟨115415846104970316816674669646231381722554829723945808246505339409944432478334, 33126753624353590316677983729603901933376151587979623867133648552767197976839, 1⟩,
    ⟨27804400966314027302891338994422774282445841520775309416082365447074304869087, 22189289613959289111816756552052735911477496398882303793026030878198228358988, 1⟩) := by decide +kernel

theorem secp_step23 : mulSteps secpCurve 8 4722366482869645213695
    ⟨115415846104970316816674669646231381722554829723945808246505339409944432478334, 33126753624353590316677983729603901933376151587979623867133648552767197976839, 1⟩
    ⟨27804400966314027302891338994422774282445841520775309416082365447074304869087, 22189289613959289111816756552052735911477496398882303793026030878198228358988, 1⟩ = .ok (18446744073709551615,
    ⟨106135013536326263233204638779771538367307463662639765758785315935371743257267, 86028625094535483850261571256264386723357163272666519397289099603747119225149, 1⟩,
    ⟨28003146107478046664154928159845471808243855266296118979360653585560840286585, 17472348760884599305730522387895317413840017270003071383430208589586110339045, 1⟩) := by decide +kernel

theorem secp_step24 : mulSteps secpCurve 8 18446744073709551615
    ⟨106135013536326263233204638779771538367307463662639765758785315935371743257267, 86028625094535483850261571256264386723357163272666519397289099603747119225149, 1⟩
    ⟨28003146107478046664154928159845471808243855266296118979360653585560840286585, 17472348760884599305730522387895317413840017270003071383430208589586110339045, 1⟩ = .ok (72057594037927935,
    ⟨13922864845768229163833387034770518418928910654248512738626529054912919158553, 79126321700797654134629819022700262425734361986906066326971931873703874776829, 1⟩,
    ⟨95689494562826599231195608175794230046200665608285390241335266055148493953138, 2923644913437120254965616038781841246932972367039425855555437379725680934279, 1⟩) := by decide +kernel

theorem secp_step25 : mulSteps secpCurve 8 72057594037927935
    ⟨13922864845768229163833387034770518418928910654248512738626529054912919158553, 79126321700797654134629819022700262425734361986906066326971931873703874776829, 1⟩
    ⟨95689494562826599231195608175794230046200665608285390241335266055148493953138, 2923644913437120254965616038781841246932972367039425855555437379725680934279, 1⟩ = .ok (281474976710655,
    ⟨113220891681512744492539364929916345410061947313878915456447722256969001660153, 48632069096637554924274413793295750001160491151445521927536133070043743201297, 1⟩,
    ⟨78640035925022528126923521405748105471709773453053909893126126629533636472514, 55341508473693655970488469861209671625964506851931119141968270291454947406612, 1⟩) := by decide +kernel

theorem secp_step26 : mulSteps secpCurve 8 281474976710655
    ⟨113220891681512744492539364929916345410061947313878915456447722256969001660153, 48632069096637554924274413793295750001160491151445521927536133070043743201297, 1⟩
    ⟨78640035925022528126923521405748105471709773453053909893126126629533636472514, 55341508473693655970488469861209671625964506851931119141968270291454947406612, 1⟩ = .ok (1099511627775,
    ⟨76388770101766026847299654420802367216385774412973782315160485495908694642195, 57710893937692665357647691724236515472507145065106377254221657836468024167436, 1⟩,
    ⟨93892434645380211692094677353309831525819416633561622241656905314540394340021, 86505893936397634533388648792509060160316065201237754886599255575600764413503, 1⟩) := by decide +kernel

theorem secp_step27 : mulSteps secpCurve 8 1099511627775
    ⟨76388770101766026847299654420802367216385774412973782315160485495908694642195, 57710893937692665357647691724236515472507145065106377254221657836468024167436, 1⟩
    ⟨93892434645380211692094677353309831525819416633561622241656905314540394340021, 86505893936397634533388648792509060160316065201237754886599255575600764413503, 1⟩ = .ok (4294967295,
    ⟨67655380319953589260148826173219524241109847135242745518793369102772071675834, 21029601506232444319368385136955684033497833311867654114423309422350207087357, 1⟩,
    ⟨79456062806875276308642654905786759151348151741593882782802746154398285609006, 14065671326128225672581637123222351236019515326478875633413048631288058700753, 1⟩) := by decide +kernel

theorem secp_step28 : mulSteps secpCurve 8 4294967295
    ⟨67655380319953589260148826173219524241109847135242745518793369102772071675834, 21029601506232444319368385136955684033497833311867654114423309422350207087357, 1⟩
    ⟨79456062806875276308642654905786759151348151741593882782802746154398285609006, 14065671326128225672581637123222351236019515326478875633413048631288058700753, 1⟩ = .ok (16777215,
    ⟨45387637969275774150653095889876699672169323470095019346305801601969322188915, 98434237446496148394183890050136756428510322717221929962654009239641273623945, 1⟩,
    ⟨45513299833856833460523914005701882431816026595145015223813366152900228523145, 16381982964500404808465171857587213390730344895012301603300643435723561639052, 1⟩) := by decide +kernel

theorem secp_step29 : mulSteps secpCurve 8 16777215
    ⟨45387637969275774150653095889876699672169323470095019346305801601969322188915, 98434237446496148394183890050136756428510322717221929962654009239641273623945, 1⟩
    ⟨45513299833856833460523914005701882431816026595145015223813366152900228523145, 16381982964500404808465171857587213390730344895012301603300643435723561639052, 1⟩ = .ok (65535,
    ⟨8718136510001795340016406650816398436241492966773881626425334457414292825707, 47828698862917730813607230394980222348159325738755616817276492989172802309159, 1⟩,
    ⟨113605450985773573013981986576238565434632357877481508614664845754028348212260, 32812875317274073956616198199344353071916831744684058455727170251807707269621, 1⟩) := by decide +kernel

theorem secp_step30 : mulSteps secpCurve 8 65535
    ⟨8718136510001795340016406650816398436241492966773881626425334457414292825707, 47828698862917730813607230394980222348159325738755616817276492989172802309159, 1⟩
    ⟨113605450985773573013981986576238565434632357877481508614664845754028348212260, 32812875317274073956616198199344353071916831744684058455727170251807707269621, 1⟩ = .ok (255,
    ⟨63395642421589016740518975608504846303065672135176650115036476193363423546538, 29236048674093813394523910922582374630829081423043497254162533033164154049666, 1⟩,
    ⟨68281333512716218975493783469825056806394394009612507704184543078225279256156, 86216409741846037834229974785092184293688474164000369886738432379711306628344, 1⟩) := by decide +kernel

theorem secp_step31 : mulSteps secpCurve 7 255
    ⟨63395642421589016740518975608504846303065672135176650115036476193363423546538, 29236048674093813394523910922582374630829081423043497254162533033164154049666, 1⟩
    ⟨68281333512716218975493783469825056806394394009612507704184543078225279256156, 86216409741846037834229974785092184293688474164000369886738432379711306628344, 1⟩ = .ok (1,
    ⟨80609861913912564376813326121470687649554127203741395941834419933864230904708, 114172617133077519546499241751011876596863476376685168252563264143225481955342, 1⟩,
    ⟨61683183069034145073130731644405505880595088749069258798845189461983047171600, 111933558501031465367894716234603483571142880375587428243556612740569648409039, 1⟩) := by decide +kernel

theorem secp_last : secpCurve.mulLoop 1 ⟨80609861913912564376813326121470687649554127203741395941834419933864230904708, 114172617133077519546499241751011876596863476376685168252563264143225481955342, 1⟩
    ⟨61683183069034145073130731644405505880595088749069258798845189461983047171600, 111933558501031465367894716234603483571142880375587428243556612740569648409039, 1⟩ = .ok ⟨55066263022277343669578718895168534326250603453777594175500187360389116729240, 115792089237316195423570985008687907853269984665640564039457584007908834671663 - 32670510020758816978083085130507043184471273380659243275938904335757337482424, 1⟩ := by decide +kernel

theorem secp_mul_pred : Secp256k1.new.ec.multiplyScalar Secp256k1.new.g
    115792089237316195423570985008687907852837564279074904382605163141518161494336 =
    .ok ⟨55066263022277343669578718895168534326250603453777594175500187360389116729240,
      115792089237316195423570985008687907853269984665640564039457584007908834671663 -
        32670510020758816978083085130507043184471273380659243275938904335757337482424, 1⟩ := by
  rw [secp_ec, secp_g, EllipticCurve.multiplyScalar, if_neg (by norm_num), if_neg (by norm_num), EllipticCurve.mulPos,
    if_neg (by norm_num)]
  rw [mulLoop_of_steps _ _ _ _ _ _ _ _ secp_step0]
  rw [mulLoop_of_steps _ _ _ _ _ _ _ _ secp_step1]
  rw [mulLoop_of_steps _ _ _ _ _ _ _ _ secp_step2]
  rw [mulLoop_of_steps _ _ _ _ _ _ _ _ secp_step3]
  rw [mulLoop_of_steps _ _ _ _ _ _ _ _ secp_step4]
  rw [mulLoop_of_steps _ _ _ _ _ _ _ _ secp_step5]
  rw [mulLoop_of_steps _ _ _ _ _ _ _ _ secp_step6]
  rw [mulLoop_of_steps _ _ _ _ _ _ _ _ secp_step7]
  rw [mulLoop_of_steps _ _ _ _ _ _ _ _ secp_step8]
  rw [mulLoop_of_steps _ _ _ _ _ _ _ _ secp_step9]
  rw [mulLoop_of_steps _ _ _ _ _ _ _ _ secp_step10]
  rw [mulLoop_of_steps _ _ _ _ _ _ _ _ secp_step11]
  rw [mulLoop_of_steps _ _ _ _ _ _ _ _ secp_step12]
  rw [mulLoop_of_steps _ _ _ _ _ _ _ _ secp_step13]
  rw [mulLoop_of_steps _ _ _ _ _ _ _ _ secp_step14]
  rw [mulLoop_of_steps _ _ _ _ _ _ _ _ secp_step15]
  rw [mulLoop_of_steps _ _ _ _ _ _ _ _ secp_step16]
  rw [mulLoop_of_steps _ _ _ _ _ _ _ _ secp_step17]
  rw [mulLoop_of_steps _ _ _ _ _ _ _ _ secp_step18]
  rw [mulLoop_of_steps _ _ _ _ _ _ _ _ secp_step19]
  rw [mulLoop_of_steps _ _ _ _ _ _ _ _ secp_step20]
  rw [mulLoop_of_steps _ _ _ _ _ _ _ _ secp_step21]
  rw [mulLoop_of_steps _ _ _ _ _ _ _ _ secp_step22]
  rw [mulLoop_of_steps _ _ _ _ _ _ _ _ secp_step23]
  rw [mulLoop_of_steps _ _ _ _ _ _ _ _ secp_step24]
  rw [mulLoop_of_steps _ _ _ _ _ _ _ _ secp_step25]
  rw [mulLoop_of_steps _ _ _ _ _ _ _ _ secp_step26]
  rw [mulLoop_of_steps _ _ _ _ _ _ _ _ secp_step27]
  rw [mulLoop_of_steps _ _ _ _ _ _ _ _ secp_step28]
  rw [mulLoop_of_steps _ _ _ _ _ _ _ _ secp_step29]
  rw [mulLoop_of_steps _ _ _ _ _ _ _ _ secp_step30]
  rw [mulLoop_of_steps _ _ _ _ _ _ _ _ secp_step31]
  exact secp_last

end EC
