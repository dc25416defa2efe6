import Verif.Lemmas.Bounds
import Verif.Lemmas.SchoofDE
import Verif.Lemmas.SchoofYExact

/-! `schoof` returns: every product, power and reduction it forms stays within the range of the exponents, and every
remainder modulo a division polynomial terminates. -/

namespace EC
open Poly Polynomial

/-- The call returns a value with the property `P`. -/
def Tot {α : Type} (f : ℕ → Res α) (P : α → Prop) : Prop := ∃ v, Returns f v ∧ P v

namespace Tot
variable {α β : Type} {f : ℕ → Res α} {P : α → Prop}

theorem bindC {x : Res β} {Q : β → Prop} {g : ℕ → β → Res α} (h : ∃ c, x = .ok c ∧ Q c)
    (k : ∀ c, Q c → Tot (fun n => g n c) P) : Tot (fun n => x >>= g n) P := by
  obtain ⟨c, rfl, hc⟩ := h
  exact k c hc

theorem bindC' {x : Res β} {Q : β → Prop} {g : ℕ → β → Res α} (h : ∃ c, x = .ok c ∧ Q c)
    (k : ∀ c, x = .ok c → Q c → Tot (fun n => g n c) P) : Tot (fun n => x >>= g n) P := by
  obtain ⟨c, rfl, hc⟩ := h
  exact k c rfl hc

theorem bindBd {x : Res Poly} {X Y : ℤ} (Z W : ℤ) {g : ℕ → Poly → Res α} (h : ∃ c, x = .ok c ∧ c.All (Bd X Y))
    (hX : X ≤ Z) (hY : Y ≤ W) (k : ∀ c, c.All (Bd Z W) → Tot (fun n => g n c) P) : Tot (fun n => x >>= g n) P := by
  obtain ⟨c, rfl, hc⟩ := h
  exact k c (bd_mono hc hX hY)

theorem bindR {x : ℕ → Res β} {Q : β → Prop} {g : ℕ → β → Res α} (h : Tot x Q)
    (k : ∀ c N, (∀ n, N ≤ n → x n = .ok c) → Q c → Tot (fun n => g n c) P) : Tot (fun n => x n >>= g n) P := by
  obtain ⟨c, ⟨N, hN⟩, hc⟩ := h
  obtain ⟨v, ⟨M, hM⟩, hv⟩ := k c N hN hc
  refine ⟨v, ⟨max N M, fun n hn => ?_⟩, hv⟩
  change x n >>= g n = _
  rw [hN n (le_trans (le_max_left _ _) hn), Res.ok_bind]
  exact hM n (le_trans (le_max_right _ _) hn)

theorem ok {v : α} (h : P v) : Tot (fun _ => .ok v) P := ⟨v, ⟨0, fun _ _ => rfl⟩, h⟩

theorem mono {Q : α → Prop} (h : Tot f P) (k : ∀ v, P v → Q v) : Tot f Q := by
  obtain ⟨v, h1, h2⟩ := h
  exact ⟨v, h1, k v h2⟩

theorem const {x : Res α} (h : Tot (fun _ => x) P) : ∃ c, x = .ok c ∧ P c := by
  obtain ⟨v, ⟨N, h1⟩, h2⟩ := h
  exact ⟨v, h1 N le_rfl, h2⟩

end Tot

section
variable {X Y : ℤ} {f : Poly} {a b q Q : ℤ}

theorem bd_xmul {n : ℤ} (hn : 0 ≤ n) (hf : f.All (Bd X Y)) (c : ℤ) (hX : n + X ≤ 2147483647) (hY : 0 + Y ≤ 2147483647) :
    ∃ r, Poly.termMul ((TermBuilder.new.coef c).xpow n).build f = .ok r ∧ r.All (Bd (n + X) (0 + Y)) :=
  bd_mul (f := ((TermBuilder.new.coef c).xpow n).build.toPol) (all_toPol fun _ => by
    simp [TermBuilder.new, TermBuilder.coef, TermBuilder.build, TermBuilder.xpow, Monomial.key, SubVar.key, SubVar.new, Bd,
      Key.IsXY, hn]) hf hX hY

theorem bd_xmul1 {n : ℤ} (hn : 0 ≤ n) (hf : f.All (Bd X Y)) (hX : n + X ≤ 2147483647) (hY : 0 + Y ≤ 2147483647) :
    ∃ r, Poly.termMul (TermBuilder.new.xpow n).build f = .ok r ∧ r.All (Bd (n + X) (0 + Y)) :=
  bd_xmul hn hf 1 hX hY

theorem bd_y {n : ℤ} (hn : 0 ≤ n) : (TermBuilder.new.ypow n).build.toPol.All (Bd 0 n) := all_toPol fun _ => by
    simp [TermBuilder.new, TermBuilder.build, TermBuilder.ypow, Monomial.key, SubVar.key, SubVar.new, Bd,
      Key.IsXY, hn]

theorem bd_ymul1 {n : ℤ} (hn : 0 ≤ n) (hf : f.All (Bd X Y)) (hX : 0 + X ≤ 2147483647) (hY : n + Y ≤ 2147483647) :
    ∃ r, Poly.termMul (TermBuilder.new.ypow n).build f = .ok r ∧ r.All (Bd (0 + X) (n + Y)) :=
  bd_mul (f := (TermBuilder.new.ypow n).build.toPol) (bd_y hn) hf hX hY

theorem chk_ok {n : ℤ} (h0 : 0 ≤ n) (h1 : n ≤ 2147483647) : ∃ c, chk n = .ok c ∧ n = c :=
  ⟨n, chk_of ⟨by omega, by omega⟩, rfl⟩

theorem numDen1_total {ql : ℤ} (hq1 : 1 ≤ q) (hQ : q ^ 2 = Q) (hQ1 : 0 ≤ Q) (hQ2 : Q ≤ 715776516) (h1 : 1 ≤ ql)
    (h5 : ql ≤ 5) : ∃ nd, schoofNumDen1 a b q ql = .ok nd ∧ nd.1.All (Bd (3 * Q + 400) 1) ∧
      nd.2.All (Bd (3 * Q + 400) 1) := by
  have ps := bd_psi (a := a) (b := b) (n := ql) (by omega) (by omega)
  have ph := bd_phi (a := a) (b := b) h1 h5
  have om := bd_omega (a := a) (b := b) h1 h5
  refine Tot.const ?_
  unfold schoofNumDen1
  rw [hQ]
  refine Tot.bindBd 40 1 om le_rfl le_rfl fun o bo => ?_
  refine Tot.bindBd 40 1 (bd_reduce hq1 (by omega) bo (by omega)) (by omega) (by omega) fun nn1 bnn1 => ?_
  refine Tot.bindC (chk_ok hQ1 (by omega)) ?_
  rintro _ rfl
  refine Tot.bindBd 17 1 ps le_rfl le_rfl fun p1 bp1 => ?_
  refine Tot.bindBd 51 3 (bd_power (n := 3) (by omega) (by omega) (by omega) bp1 (by omega) (by omega)) (by omega) (by omega)
    fun p13 bp13 => ?_
  refine Tot.bindBd (51) (Q + 3) (bd_ymul1 (by omega) bp13 (by omega) (by omega)) (by omega) (by omega) fun nn2 bnn2 => ?_
  refine Tot.bindBd (3 * ((Q + 3) / 2) + 51) (1) (bd_reduce (by omega) (by omega) bnn2 (by omega)) (by omega) (by omega) fun nn2' bnn2' => ?_
  refine Tot.bindBd (3 * Q + 200) (2) (bd_power (n := 2) (by omega) (by omega) (by omega) (bd_sub bnn1 bnn2') (by omega) (by omega)) (by omega) (by omega)
    fun n1 bn1 => ?_
  refine Tot.bindBd (3 * Q + 200) (2) (bd_modular (by omega) bn1) (by omega) (by omega) fun n1' bn1' => ?_
  refine Tot.bindBd 40 1 ph le_rfl le_rfl fun f1 bf1 => ?_
  refine Tot.bindBd 17 1 ps le_rfl le_rfl fun p2 bp2 => ?_
  refine Tot.bindBd (34) (2) (bd_power (n := 2) (by omega) (by omega) (by omega) bp2 (by omega) (by omega)) (by omega) (by omega)
    fun p22 bp22 => ?_
  refine Tot.bindBd (Q + 34) (2) (bd_xmul1 (by omega) bp22 (by omega) (by omega)) (by omega) (by omega) fun x1 bx1 => ?_
  refine Tot.bindBd 40 1 ph le_rfl le_rfl fun f2 bf2 => ?_
  refine Tot.bindBd 17 1 ps le_rfl le_rfl fun p3 bp3 => ?_
  refine Tot.bindBd (34) (2) (bd_power (n := 2) (by omega) (by omega) (by omega) bp3 (by omega) (by omega)) (by omega) (by omega)
    fun p32 bp32 => ?_
  refine Tot.bindBd (Q + 34) (2) (bd_xmul1 (by omega) bp32 (by omega) (by omega)) (by omega) (by omega) fun x2 bx2 => ?_
  refine Tot.bindBd (2 * Q + 100) (4) (bd_power (n := 2) (by omega) (by omega) (by omega) (bd_sub bf2 bx2) (by omega) (by omega)) (by omega) (by omega)
    fun n3 bn3 => ?_
  refine Tot.bindBd (3 * Q + 200) (6) (bd_mul (bd_neg (bd_add bf1 bx1)) bn3 (by omega) (by omega)) (by omega) (by omega) fun m1 bm1 => ?_
  refine Tot.bindBd (3 * Q + 200) (6) (bd_modular (by omega) (bd_add bn1' bm1)) (by omega) (by omega) fun num1 bnum1 => ?_
  refine Tot.bindBd (3 * Q + 209) (1) (bd_reduce (by omega) (by omega) bnum1 (by omega)) (by omega) (by omega) fun num1' bnum1' => ?_
  refine Tot.bindBd 17 1 ps le_rfl le_rfl fun p4 bp4 => ?_
  refine Tot.bindBd (34) (2) (bd_power (n := 2) (by omega) (by omega) (by omega) bp4 (by omega) (by omega)) (by omega) (by omega)
    fun p42 bp42 => ?_
  refine Tot.bindBd 40 1 ph le_rfl le_rfl fun f3 bf3 => ?_
  refine Tot.bindBd 17 1 ps le_rfl le_rfl fun p5 bp5 => ?_
  refine Tot.bindBd (34) (2) (bd_power (n := 2) (by omega) (by omega) (by omega) bp5 (by omega) (by omega)) (by omega) (by omega)
    fun p52 bp52 => ?_
  refine Tot.bindBd (Q + 34) (2) (bd_xmul1 (by omega) bp52 (by omega) (by omega)) (by omega) (by omega) fun x3 bx3 => ?_
  refine Tot.bindBd (2 * Q + 100) (4) (bd_power (n := 2) (by omega) (by omega) (by omega) (bd_sub bf3 bx3) (by omega) (by omega)) (by omega) (by omega)
    fun s bs => ?_
  refine Tot.bindBd (2 * Q + 134) (6) (bd_mul bp42 bs (by omega) (by omega)) (by omega) (by omega) fun den1 bden1 => ?_
  refine Tot.bindBd (2 * Q + 143) (1) (bd_reduce (by omega) (by omega) bden1 (by omega)) (by omega) (by omega) fun den1' bden1' => ?_
  exact Tot.ok ⟨bd_mono bnum1' (by omega) (by omega), bd_mono bden1' (by omega) (by omega)⟩

theorem xTest_total {num1 den1 psL : Poly} {j : ℤ} (hp : Nat.Prime q.toNat) (hq1 : 1 ≤ q) (hq2 : q ≤ 26754) (hQ1 : 0 ≤ Q)
    (hQ2 : Q ≤ 715776516) (h1 : 1 ≤ j) (h5 : j ≤ 2) (hn : num1.All (Bd (3 * Q + 400) 1))
    (hd : den1.All (Bd (3 * Q + 400) 1)) (ho : psL.All Key.IsX) (hox : 0 < psL.highestTermX.xpow)
    (hoc : ¬ q ∣ psL.highestTermX.coef) :
    Tot (fun fuel => schoofXTest fuel a b q num1 den1 psL j) fun _ => True := by
  have ps := bd_psi' (a := a) (b := b) (n := j) (by omega) (by omega)
  have ph := bd_phi' (a := a) (b := b) (n := j) h1 (by omega)
  have hj4 : j ^ 2 ≤ 4 := by nlinarith
  unfold schoofXTest
  refine Tot.bindBd 4 0 ph hj4 le_rfl fun f1 bf1 => ?_
  refine Tot.bindBd (4 * q) (0) (bd_frob (by omega) bf1 (by omega) (by omega)) (by omega) (by omega) fun f2 bf2 => ?_
  refine Tot.bindBd (4 * q) (1) (bd_reduce (by omega) (by omega) bf2 (by omega)) (by omega) (by omega) fun num2 bnum2 => ?_
  refine Tot.bindBd 0 1 ps le_rfl le_rfl fun p1 bp1 => ?_
  refine Tot.bindBd 0 (q) (bd_frob (by omega) bp1 (by omega) (by omega)) (by omega) (by omega) fun p2 bp2 => ?_
  refine Tot.bindBd 0 (2 * q) (bd_power (n := 2) (by omega) (by omega) (by omega) bp2 (by omega) (by omega)) (by omega) (by omega)
    fun den2 bden2 => ?_
  refine Tot.bindBd (3 * Q + 400) (2 * q + 1) (bd_mul hn bden2 (by omega) (by omega)) (by omega) (by omega) fun m1 bm1 => ?_
  refine Tot.bindBd (4 * q + 3 * Q + 400) (2) (bd_mul bnum2 hd (by omega) (by omega)) (by omega) (by omega) fun m2 bm2 => ?_
  have w : (m1.sub m2).All (Wd (3 * Q + 405 + 4 * q)) := all_sub
    (bm1.mono fun k hk => ⟨hk.1, by have := hk.2.1; have := hk.2.2; omega⟩)
    (bm2.mono fun k hk => ⟨hk.1, by have := hk.2.1; have := hk.2.2; omega⟩)
  refine Tot.bindC (Q := fun c => c.All (Wd (3 * Q + 405 + 4 * q))) (by
    obtain ⟨c, hc, hm⟩ := modularAssign_ok (m1.sub m2) (show 0 < q by omega)
    exact ⟨c, hc, hm.all w⟩) fun r1 br1 => ?_
  refine Tot.bindBd (3 * Q + 405 + 4 * q) (1) (wd_reduce (by omega) br1 (by omega)) (by omega) (by omega) fun r2 br2 => ?_
  obtain ⟨g, hg⟩ := polynomialModular_total hp ho hox hoc (fun e he => (br2 e he).bu) (by omega)
  refine Tot.bindR (Q := fun _ => True) ⟨g, hg, trivial⟩ fun c _ _ _ => ?_
  obtain ⟨c', hc', -⟩ := modularAssign_ok c (show 0 < q by omega)
  exact Tot.bindC (Q := fun _ => True) ⟨c', hc', trivial⟩ fun _ _ => Tot.ok trivial

theorem findJ_total {num1 den1 psL : Poly} (hp : Nat.Prime q.toNat) (hq1 : 1 ≤ q) (hq2 : q ≤ 26754) (hQ1 : 0 ≤ Q)
    (hQ2 : Q ≤ 715776516) (hn : num1.All (Bd (3 * Q + 400) 1))
    (hd : den1.All (Bd (3 * Q + 400) 1)) (ho : psL.All Key.IsX) (hox : 0 < psL.highestTermX.xpow)
    (hoc : ¬ q ∣ psL.highestTermX.coef) : ∀ (l : List ℤ), (∀ j ∈ l, 1 ≤ j ∧ j ≤ 2) →
    Tot (fun fuel => schoofFindJ fuel a b q num1 den1 psL l) fun o => ∀ j, o = some j → j ∈ l := by
  intro l
  induction l with
  | nil => exact fun _ => Tot.ok (by simp)
  | cons j t ih =>
    intro hl
    refine Tot.bindR (x := fun n => schoofXTest n a b q num1 den1 psL j)
      (g := fun n c => if c = true then .ok (some j) else schoofFindJ n a b q num1 den1 psL t)
      (xTest_total hp hq1 hq2 hQ1 hQ2 (hl j (by simp)).1 (hl j (by simp)).2 hn hd ho hox hoc) ?_
    intro c _ _ _
    cases c with
    | true => exact Tot.ok (by simp)
    | false => exact (ih fun j hj => hl j (by simp [hj])).mono fun o ho j hj => by simp [ho j hj]

theorem schoofY_total {psL : Poly} {l ql j : ℤ} (hp : Nat.Prime q.toNat) (hq1 : 1 ≤ q) (hq2 : q ≤ 21841) (hQ : q ^ 2 = Q)
    (hQ1 : 0 ≤ Q) (hQ2 : Q ≤ 477029281) (h1 : 1 ≤ ql) (h5 : ql ≤ 5) (h1' : 1 ≤ j) (h5' : j ≤ 2)
    (ho : psL.All Key.IsX) (hox : 0 < psL.highestTermX.xpow) (hoc : ¬ q ∣ psL.highestTermX.coef) :
    Tot (fun fuel => schoofY fuel a b q l ql j psL) fun _ => True := by
  have ps := bd_psi (a := a) (b := b) (n := ql) (by omega) (by omega)
  have ph := bd_phi (a := a) (b := b) h1 h5
  have om := bd_omega (a := a) (b := b) h1 h5
  have psj := bd_psi' (a := a) (b := b) (n := j) (by omega) (by omega)
  have omj := bd_omega' (a := a) (b := b) h1' h5'
  have byQ := bd_y hQ1
  unfold schoofY
  rw [hQ]
  refine Tot.bindC (chk_ok hQ1 (by omega)) ?_
  rintro _ rfl
  refine Tot.bindBd (3 * (Q / 2)) (1) (bd_reduce (by omega) (by omega) byQ (by omega)) (by omega) (by omega) fun g bg => ?_
  refine Tot.bindBd 40 1 om le_rfl le_rfl fun o1 bo1 => ?_
  refine Tot.bindBd (40) (1) (bd_modular (by omega) bo1) (by omega) (by omega) fun o2 bo2 => ?_
  refine Tot.bindBd 17 1 ps le_rfl le_rfl fun p1 bp1 => ?_
  refine Tot.bindBd (51) (3) (bd_power (n := 3) (by omega) (by omega) (by omega) bp1 (by omega) (by omega)) (by omega) (by omega)
    fun p13 bp13 => ?_
  refine Tot.bindBd (3 * (Q / 2) + 51) (4) (bd_mul bg bp13 (by omega) (by omega)) (by omega) (by omega) fun m1 bm1 => ?_
  refine Tot.bindBd (3 * (Q / 2) + 60) (1) (bd_reduce (by omega) (by omega) (bd_sub bo2 bm1) (by omega)) (by omega) (by omega) fun d bd => ?_
  refine Tot.bindBd 40 1 ph le_rfl le_rfl fun f1 bf1 => ?_
  refine Tot.bindBd 17 1 ps le_rfl le_rfl fun p2 bp2 => ?_
  refine Tot.bindBd (34) (2) (bd_power (n := 2) (by omega) (by omega) (by omega) bp2 (by omega) (by omega)) (by omega) (by omega)
    fun p22 bp22 => ?_
  refine Tot.bindBd (Q + 34) (2) (bd_xmul (by omega) bp22 2 (by omega) (by omega)) (by omega) (by omega) fun x1 bx1 => ?_
  refine Tot.bindBd (Q + 40) (2) (bd_modular (by omega) (bd_add (bd_neg bf1) bx1)) (by omega) (by omega) fun e1 be1 => ?_
  refine Tot.bindBd (Q + 43) (1) (bd_reduce (by omega) (by omega) be1 (by omega)) (by omega) (by omega) fun e be => ?_
  refine Tot.bindBd 40 1 ph le_rfl le_rfl fun f2 bf2 => ?_
  refine Tot.bindBd 17 1 ps le_rfl le_rfl fun p3 bp3 => ?_
  refine Tot.bindBd (34) (2) (bd_power (n := 2) (by omega) (by omega) (by omega) bp3 (by omega) (by omega)) (by omega) (by omega)
    fun p32 bp32 => ?_
  refine Tot.bindBd (Q + 34) (2) (bd_xmul1 (by omega) bp32 (by omega) (by omega)) (by omega) (by omega) fun x2 bx2 => ?_
  refine Tot.bindBd (Q + 40) (2) (bd_modular (by omega) (bd_sub bf2 bx2)) (by omega) (by omega) fun e2 be2 => ?_
  refine Tot.bindBd (Q + 43) (1) (bd_reduce (by omega) (by omega) be2 (by omega)) (by omega) (by omega) fun f bf => ?_
  refine Tot.bindBd (2 * Q + 86) (2) (bd_power (n := 2) (by omega) (by omega) (by omega) bf (by omega) (by omega)) (by omega) (by omega)
    fun ff2 bff2 => ?_
  refine Tot.bindBd (3 * Q + 129) (3) (bd_mul be bff2 (by omega) (by omega)) (by omega) (by omega) fun m2 bm2 => ?_
  refine Tot.bindBd (6 * (Q / 2) + 120) (2) (bd_power (n := 2) (by omega) (by omega) (by omega) bd (by omega) (by omega)) (by omega) (by omega)
    fun d2 bd2 => ?_
  refine Tot.bindBd (3 * Q + 3 * (Q / 2) + 200) (4) (bd_mul bd (bd_sub bm2 bd2) (by omega) (by omega)) (by omega) (by omega) fun m3 bm3 => ?_
  refine Tot.bindBd 17 1 ps le_rfl le_rfl fun p4 bp4 => ?_
  refine Tot.bindBd (51) (3) (bd_power (n := 3) (by omega) (by omega) (by omega) bp4 (by omega) (by omega)) (by omega) (by omega)
    fun p43 bp43 => ?_
  refine Tot.bindBd (3 * (Q / 2) + 51) (4) (bd_mul bg bp43 (by omega) (by omega)) (by omega) (by omega) fun m4 bm4 => ?_
  refine Tot.bindBd (3 * Q + 129) (3) (bd_power (n := 3) (by omega) (by omega) (by omega) bf (by omega) (by omega)) (by omega) (by omega)
    fun ff3 bff3 => ?_
  refine Tot.bindBd (3 * (Q / 2) + 3 * Q + 180) (7) (bd_mul bm4 bff3 (by omega) (by omega)) (by omega) (by omega) fun m5 bm5 => ?_
  refine Tot.bindBd (3 * (Q / 2) + 3 * Q + 220) (1) (bd_reduce (by omega) (by omega) (bd_sub bm3 bm5) (by omega)) (by omega) (by omega) fun num3 bnum3 => ?_
  refine Tot.bindBd 17 1 ps le_rfl le_rfl fun p5 bp5 => ?_
  refine Tot.bindBd (3 * (Q / 2) + 3 * Q + 240) (2) (bd_mul bnum3 bp5 (by omega) (by omega)) (by omega) (by omega) fun num3a bnum3a => ?_
  refine Tot.bindBd (3 * (Q / 2) + 3 * Q + 250) (1) (bd_reduce (by omega) (by omega) bnum3a (by omega)) (by omega) (by omega) fun num3b bnum3b => ?_
  refine Tot.bindBd 17 1 ps le_rfl le_rfl fun p6 bp6 => ?_
  refine Tot.bindBd (51) (3) (bd_power (n := 3) (by omega) (by omega) (by omega) bp6 (by omega) (by omega)) (by omega) (by omega)
    fun p63 bp63 => ?_
  refine Tot.bindBd (3 * Q + 129) (3) (bd_power (n := 3) (by omega) (by omega) (by omega) bf (by omega) (by omega)) (by omega) (by omega)
    fun ff3' bff3' => ?_
  refine Tot.bindBd (3 * Q + 180) (6) (bd_mul bp63 bff3' (by omega) (by omega)) (by omega) (by omega) fun m6 bm6 => ?_
  refine Tot.bindBd 17 1 ps le_rfl le_rfl fun p7 bp7 => ?_
  refine Tot.bindBd (3 * Q + 200) (7) (bd_mul bm6 bp7 (by omega) (by omega)) (by omega) (by omega) fun den3 bden3 => ?_
  refine Tot.bindBd (3 * Q + 210) (1) (bd_reduce (by omega) (by omega) bden3 (by omega)) (by omega) (by omega) fun den3' bden3' => ?_
  refine Tot.bindBd 6 1 omj le_rfl le_rfl fun o3 bo3 => ?_
  refine Tot.bindBd (6 * q) (q) (bd_frob (by omega) bo3 (by omega) (by omega)) (by omega) (by omega) fun o4 bo4 => ?_
  refine Tot.bindBd (6 * q + 3 * (q / 2)) (1) (bd_reduce (by omega) (by omega) bo4 (by omega)) (by omega) (by omega) fun num4 bnum4 => ?_
  refine Tot.bindBd 0 1 psj le_rfl le_rfl fun p8 bp8 => ?_
  refine Tot.bindBd 0 (q) (bd_frob (by omega) bp8 (by omega) (by omega)) (by omega) (by omega) fun p9 bp9 => ?_
  refine Tot.bindBd 0 (3 * q) (bd_power (n := 3) (by omega) (by omega) (by omega) bp9 (by omega) (by omega)) (by omega) (by omega)
    fun den4 bden4 => ?_
  refine Tot.bindBd (3 * (3 * q / 2)) (1) (bd_reduce (by omega) (by omega) bden4 (by omega)) (by omega) (by omega) fun den4' bden4' => ?_
  refine Tot.bindBd (3 * (Q / 2) + 3 * Q + 250 + 8 * q) (2) (bd_mul bnum3b bden4' (by omega) (by omega)) (by omega) (by omega) fun m7 bm7 => ?_
  refine Tot.bindBd (8 * q + 3 * Q + 210) (2) (bd_mul bnum4 bden3' (by omega) (by omega)) (by omega) (by omega) fun m8 bm8 => ?_
  refine Tot.bindBd (3 * (Q / 2) + 3 * Q + 250 + 8 * q) (2) (bd_modular (by omega) (bd_sub bm7 bm8)) (by omega) (by omega) fun p7' bp7' => ?_
  refine Tot.bindBd (3 * (Q / 2) + 3 * Q + 260 + 8 * q) (1) (bd_reduce (by omega) (by omega) bp7' (by omega)) (by omega) (by omega) fun p8' bp8' => ?_
  have hk : ∀ c : Poly, c.All (Bu (3 * (Q / 2) + 3 * Q + 260 + 8 * q)) → Tot (fun n => do
        let p9 ← c.modularAssign q
        let p9 ← polynomialModular n p9 psL q
        let jj := if (!p9.isZero) = true then -j else j
        let jj := if jj < 0 then jj + l else jj
        Res.ok { l := l, r := jj : ModResult }) fun _ => True := by
    intro p9 bp9
    refine Tot.bindC (bu_modular (by omega) bp9) fun p10 bp10 => ?_
    obtain ⟨g, hg⟩ := polynomialModular_total hp ho hox hoc bp10 (by omega)
    exact Tot.bindR (Q := fun _ => True) ⟨g, hg, trivial⟩ fun c _ _ _ => Tot.ok trivial
  cases p8'.hasY with
  | true => exact Tot.bindC (bd_divY bp8' (by omega)) hk
  | false => exact hk p8' (fun e he => (bp8' e he).bu)

theorem schoofDE_none {l ql : ℤ} (h : (irange 1 l).find? (fun i => Int.fmod (i ^ 2) l = ql) = none) :
    Tot (fun fuel => schoofDE fuel a b q l ql) fun r => r = { l := l, r := 0 } := by
  unfold schoofDE
  rw [h]
  exact Tot.ok rfl

theorem schoofDE_three_total [hp : Fact (Nat.Prime q.toNat)] (hq2 : q ≤ 100000000) (h1 : q % 3 = 1)
    (hc : ¬ ∃ c : ZMod q.toNat, c ≠ 0 ∧ c ^ 3 = -4 * (b : ZMod q.toNat)) :
    Tot (fun fuel => schoofDE fuel a b q 3 1) fun r => r = { l := 3, r := 0 } := by
  have hq := two_le_of_prime (p := q) Fact.out
  unfold schoofDE
  rw [find_one]
  dsimp only
  refine Tot.bindC' (bd_psi (by omega) (by omega)) fun s1 hs1 bs1 => ?_
  refine Tot.bindC' (bd_power (n := 2) (by omega) (by omega) (by omega) bs1 (by omega) (by omega)) fun s2 hs2 bs2 => ?_
  refine Tot.bindC' (bd_xmul1 (by omega) bs2 (by omega) (by omega)) fun s3 hs3 bs3 => ?_
  refine Tot.bindC' (bd_phi (by omega) (by omega)) fun ph hph bph => ?_
  refine Tot.bindC' (bd_modular (by omega) (bd_sub bs3 bph)) fun p12 hp12 bp12 => ?_
  refine Tot.bindC' (bd_reduce (by omega) (by omega) bp12 (by omega)) fun p13 hp13 bp13 => ?_
  refine Tot.bindC' (bd_psi (by omega) (by omega)) fun ps hps bps => ?_
  refine Tot.bindC' (bd_rem (by omega) bps) fun p14 hp14 bp14 => ?_
  obtain ⟨w1, w2, w3⟩ := psi_lead (l := 3) rfl le_rfl (by push_cast; omega) hps hp14
  obtain ⟨g, hg⟩ := polynomialModular_total hp.out w1 w2 w3 (fun e he => (bp13 e he).bu) (by omega)
  refine Tot.bindR (Q := fun _ => True) ⟨g, hg, trivial⟩ fun p15 N hN _ => ?_
  have hz := de_three_zero (by omega) h1 hs1 hs2 hs3 hph hp12 hp13 hps hp14 (hN N le_rfl)
  have : p15.isZero = false := by
    cases h : p15.isZero with
    | false => rfl
    | true => exact absurd (hz.1 h) hc
  rw [this]
  exact Tot.ok rfl

end
end EC
