import Verif.Lemmas.BigInt
import Mathlib.NumberTheory.LucasPrimality
import Mathlib.Tactic.NormNum.Prime

/-! Primality certificates for the parameters of secp256k1 (Lucas/Pratt certificates checked by
modular exponentiation in the kernel). -/

namespace EC

/-- Modular exponentiation by squaring that evaluates its arguments at each step (the comparisons
force them), for evaluation in the kernel. -/
def pm (m : ℕ) : ℕ → ℕ → ℕ → ℕ → ℕ
  | 0, _, _, acc => acc
  | f + 1, e, b, acc =>
    if acc = m then acc
    else if b = m then acc
    else pm m f (e / 2) (b * b % m) (if e % 2 = 1 then acc * b % m else acc)

theorem pm_spec (m : ℕ) (hm : 0 < m) (f : ℕ) : ∀ e b acc, e < 2 ^ f → acc < m → b < m →
    ((pm m f e b acc : ℕ) : ZMod m) = acc * b ^ e ∧ pm m f e b acc < m := by
  induction f with
  | zero =>
    intro e b acc he ha hb
    have : e = 0 := by simpa using he
    subst this
    simp [pm, ha]
  | succ f ih =>
    intro e b acc he ha hb
    have he' : e / 2 < 2 ^ f := by rw [pow_succ] at he; omega
    have hE : e = 2 * (e / 2) + e % 2 := by omega
    rw [pm, if_neg (by omega), if_neg (by omega)]
    by_cases ho : e % 2 = 1
    · rw [if_pos ho]
      obtain ⟨i1, i2⟩ := ih (e / 2) (b * b % m) (acc * b % m) he' (Nat.mod_lt _ hm) (Nat.mod_lt _ hm)
      refine ⟨?_, i2⟩
      rw [i1, ZMod.natCast_mod, ZMod.natCast_mod]
      conv_rhs => rw [hE, ho, pow_add, pow_mul]
      push_cast
      ring
    · rw [if_neg ho]
      obtain ⟨i1, i2⟩ := ih (e / 2) (b * b % m) acc he' ha (Nat.mod_lt _ hm)
      refine ⟨?_, i2⟩
      rw [i1, ZMod.natCast_mod]
      conv_rhs => rw [hE, show e % 2 = 0 by omega, pow_add, pow_mul]
      push_cast
      ring

/-- A Pratt certificate step. -/
theorem pratt (p a : ℕ) (fs : List ℕ) (hp : 3 ≤ p) (hprod : fs.prod = p - 1) (hpr : ∀ q ∈ fs, q.Prime)
    (hb : p ≤ 2 ^ 256) (ha : a < p) (h1 : pm p 256 (p - 1) a 1 = 1)
    (h2 : ∀ q ∈ fs, pm p 256 ((p - 1) / q) a 1 ≠ 1) : p.Prime := by
  have key : ∀ n : ℕ, n < p → (((a : ZMod p) ^ n = 1) ↔ pm p 256 n a 1 = 1) := by
    intro n hn
    obtain ⟨i1, i2⟩ := pm_spec p (by omega) 256 n a 1 (by omega) (by omega) ha
    rw [Nat.cast_one, one_mul] at i1
    rw [← i1]
    have := ZMod.natCast_eq_natCast_iff' (pm p 256 n a 1) 1 p
    rw [Nat.mod_eq_of_lt i2, Nat.mod_eq_of_lt (show 1 < p by omega), Nat.cast_one] at this
    exact this
  refine lucas_primality p (a : ZMod p) ((key _ (by omega)).2 h1) ?_
  intro q hq hd
  rw [← hprod] at hd
  obtain ⟨r, hr, hqr⟩ := (Prime.dvd_prod_iff hq.prime).1 hd
  have : q = r := (Nat.prime_dvd_prime_iff_eq hq (hpr r hr)).1 hqr
  subst this
  have hqd : q ∣ p - 1 := hprod ▸ List.dvd_prod hr
  have hle : q ≤ p - 1 := Nat.le_of_dvd (by omega) hqd
  rw [ne_eq, key _ (lt_of_le_of_lt (Nat.div_le_self _ _) (by omega))]
  exact h2 q hr

theorem prime_cert_0 : Nat.Prime 173378833005251801 := by
  refine pratt _ 6 [2, 2, 2, 5, 5, 2621, 24809, 13331831] (by norm_num) (by norm_num) ?_ (by norm_num) (by norm_num) (by decide +kernel) (by decide +kernel)
  intro q hq
  simp only [List.mem_cons, List.not_mem_nil, or_false] at hq
  rcases hq with rfl | rfl | rfl | rfl | rfl | rfl | rfl | rfl
  · norm_num
  · norm_num
  · norm_num
  · norm_num
  · norm_num
  · norm_num
  · norm_num
  · norm_num

theorem prime_cert_1 : Nat.Prime 22149492674086928081353 := by
  refine pratt _ 5 [2, 2, 2, 3, 5323, 173378833005251801] (by norm_num) (by norm_num) ?_ (by norm_num) (by norm_num) (by decide +kernel) (by decide +kernel)
  intro q hq
  simp only [List.mem_cons, List.not_mem_nil, or_false] at hq
  rcases hq with rfl | rfl | rfl | rfl | rfl | rfl
  · norm_num
  · norm_num
  · norm_num
  · norm_num
  · norm_num
  · exact prime_cert_0

theorem prime_cert_2 : Nat.Prime 132896956044521568488119 := by
  refine pratt _ 6 [2, 3, 22149492674086928081353] (by norm_num) (by norm_num) ?_ (by norm_num) (by norm_num) (by decide +kernel) (by decide +kernel)
  intro q hq
  simp only [List.mem_cons, List.not_mem_nil, or_false] at hq
  rcases hq with rfl | rfl | rfl
  · norm_num
  · norm_num
  · exact prime_cert_1

theorem prime_cert_3 : Nat.Prime 255515944373312847190720520512484175977 := by
  refine pratt _ 3 [2, 2, 2, 7, 7, 11, 1627, 2657, 4423, 41201, 96557, 7240687, 107590001] (by norm_num) (by norm_num) ?_ (by norm_num) (by norm_num) (by decide +kernel) (by decide +kernel)
  intro q hq
  simp only [List.mem_cons, List.not_mem_nil, or_false] at hq
  rcases hq with rfl | rfl | rfl | rfl | rfl | rfl | rfl | rfl | rfl | rfl | rfl | rfl | rfl
  · norm_num
  · norm_num
  · norm_num
  · norm_num
  · norm_num
  · norm_num
  · norm_num
  · norm_num
  · norm_num
  · norm_num
  · norm_num
  · norm_num
  · norm_num

theorem prime_cert_4 : Nat.Prime 205115282021455665897114700593932402728804164701536103180137503955397371 := by
  refine pratt _ 10 [2, 3, 5, 29, 29, 31, 7723, 132896956044521568488119, 255515944373312847190720520512484175977] (by norm_num) (by norm_num) ?_ (by norm_num) (by norm_num) (by decide +kernel) (by decide +kernel)
  intro q hq
  simp only [List.mem_cons, List.not_mem_nil, or_false] at hq
  rcases hq with rfl | rfl | rfl | rfl | rfl | rfl | rfl | rfl | rfl
  · norm_num
  · norm_num
  · norm_num
  · norm_num
  · norm_num
  · norm_num
  · norm_num
  · exact prime_cert_2
  · exact prime_cert_3

theorem prime_cert_5 : Nat.Prime 115792089237316195423570985008687907853269984665640564039457584007908834671663 := by
  refine pratt _ 3 [2, 3, 7, 13441, 205115282021455665897114700593932402728804164701536103180137503955397371] (by norm_num) (by norm_num) ?_ (by norm_num) (by norm_num) (by decide +kernel) (by decide +kernel)
  intro q hq
  simp only [List.mem_cons, List.not_mem_nil, or_false] at hq
  rcases hq with rfl | rfl | rfl | rfl | rfl
  · norm_num
  · norm_num
  · norm_num
  · norm_num
  · exact prime_cert_4

theorem prime_cert_6 : Nat.Prime 107361793816595537 := by
  refine pratt _ 3 [2, 2, 2, 2, 16699, 85831, 4681609] (by norm_num) (by norm_num) ?_ (by norm_num) (by norm_num) (by decide +kernel) (by decide +kernel)
  intro q hq
  simp only [List.mem_cons, List.not_mem_nil, or_false] at hq
  rcases hq with rfl | rfl | rfl | rfl | rfl | rfl | rfl
  · norm_num
  · norm_num
  · norm_num
  · norm_num
  · norm_num
  · norm_num
  · norm_num

theorem prime_cert_7 : Nat.Prime 174723607534414371449 := by
  refine pratt _ 3 [2, 2, 2, 17, 59, 4051, 120233, 44706919] (by norm_num) (by norm_num) ?_ (by norm_num) (by norm_num) (by decide +kernel) (by decide +kernel)
  intro q hq
  simp only [List.mem_cons, List.not_mem_nil, or_false] at hq
  rcases hq with rfl | rfl | rfl | rfl | rfl | rfl | rfl | rfl
  · norm_num
  · norm_num
  · norm_num
  · norm_num
  · norm_num
  · norm_num
  · norm_num
  · norm_num

theorem prime_cert_8 : Nat.Prime 297159362677 := by
  refine pratt _ 2 [2, 2, 3, 3, 11, 461, 1627771] (by norm_num) (by norm_num) ?_ (by norm_num) (by norm_num) (by decide +kernel) (by decide +kernel)
  intro q hq
  simp only [List.mem_cons, List.not_mem_nil, or_false] at hq
  rcases hq with rfl | rfl | rfl | rfl | rfl | rfl | rfl
  · norm_num
  · norm_num
  · norm_num
  · norm_num
  · norm_num
  · norm_num
  · norm_num

theorem prime_cert_9 : Nat.Prime 545358713 := by
  refine pratt _ 5 [2, 2, 2, 41, 59, 28181] (by norm_num) (by norm_num) ?_ (by norm_num) (by norm_num) (by decide +kernel) (by decide +kernel)
  intro q hq
  simp only [List.mem_cons, List.not_mem_nil, or_false] at hq
  rcases hq with rfl | rfl | rfl | rfl | rfl | rfl
  · norm_num
  · norm_num
  · norm_num
  · norm_num
  · norm_num
  · norm_num

theorem prime_cert_10 : Nat.Prime 29047611873442575647497758179 := by
  refine pratt _ 2 [2, 293, 305873, 545358713, 297159362677] (by norm_num) (by norm_num) ?_ (by norm_num) (by norm_num) (by decide +kernel) (by decide +kernel)
  intro q hq
  simp only [List.mem_cons, List.not_mem_nil, or_false] at hq
  rcases hq with rfl | rfl | rfl | rfl | rfl
  · norm_num
  · norm_num
  · norm_num
  · exact prime_cert_9
  · exact prime_cert_8

theorem prime_cert_11 : Nat.Prime 341948486974166000522343609283189 := by
  refine pratt _ 2 [2, 2, 3, 3, 3, 109, 29047611873442575647497758179] (by norm_num) (by norm_num) ?_ (by norm_num) (by norm_num) (by decide +kernel) (by decide +kernel)
  intro q hq
  simp only [List.mem_cons, List.not_mem_nil, or_false] at hq
  rcases hq with rfl | rfl | rfl | rfl | rfl | rfl | rfl
  · norm_num
  · norm_num
  · norm_num
  · norm_num
  · norm_num
  · norm_num
  · exact prime_cert_10

theorem prime_cert_12 : Nat.Prime 115792089237316195423570985008687907852837564279074904382605163141518161494337 := by
  refine pratt _ 7 [2, 2, 2, 2, 2, 2, 3, 149, 631, 107361793816595537, 174723607534414371449, 341948486974166000522343609283189] (by norm_num) (by norm_num) ?_ (by norm_num) (by norm_num) (by decide +kernel) (by decide +kernel)
  intro q hq
  simp only [List.mem_cons, List.not_mem_nil, or_false] at hq
  rcases hq with rfl | rfl | rfl | rfl | rfl | rfl | rfl | rfl | rfl | rfl | rfl | rfl
  · norm_num
  · norm_num
  · norm_num
  · norm_num
  · norm_num
  · norm_num
  · norm_num
  · norm_num
  · norm_num
  · exact prime_cert_6
  · exact prime_cert_7
  · exact prime_cert_11

end EC
