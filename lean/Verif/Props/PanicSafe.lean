import Verif.Model.Panic
import Verif.Props.PolyRing
import Verif.Props.PolyDiv
import Verif.Props.PolyMaps
import Verif.Props.AnyModulusPoints

/-! What a `&mut self` method leaves in the receiver, also when it panics (`Model/Panic.lean`):
it behaves as the value-returning model function, and after a panic the receiver is unchanged. -/

namespace EC

namespace Mut

variable {σ α β : Type}

theorem bind_ok {x : Mut σ α} {f : α → Mut σ β} {s s' : σ} {a : α} (h : x s = (s', .ok a)) :
    bind x f s = f a s' := by simp [bind, h]

theorem bind_panic {x : Mut σ α} {f : α → Mut σ β} {s s' : σ} {w : Panic}
    (h : x s = (s', .panic w)) : bind x f s = (s', .panic w) := by simp [bind, h]

theorem forIn_cons (body : β → α → Mut σ α) (e : β) (t : List β) (acc : α) :
    forIn body (e :: t) acc = bind (body e acc) (forIn body t) := rfl

/-- A loop all of whose bodies return is the fold over the pair of receiver and locals. -/
theorem forIn_ok (body : β → α → Mut σ α) (g : σ × α → β → Res (σ × α))
    (h : ∀ e acc s s' acc', g (s, acc) e = .ok (s', acc') → body e acc s = (s', .ok acc'))
    (l : List β) (s : σ) (acc : α) (s' : σ) (acc' : α)
    (hl : l.foldlM g (s, acc) = .ok (s', acc')) : forIn body l acc s = (s', .ok acc') := by
  induction l generalizing s acc with
  | nil =>
    simp only [List.foldlM_nil] at hl
    have : (s, acc) = (s', acc') := by simpa [Pure.pure] using hl
    obtain ⟨rfl, rfl⟩ := Prod.mk.inj this
    rfl
  | cons e t ih =>
    rw [List.foldlM_cons] at hl
    match hg : g (s, acc) e with
    | .ok (s1, acc1) =>
      rw [hg] at hl
      rw [forIn_cons, bind_ok (h _ _ _ _ _ hg)]
      exact ih _ _ hl
    | .panic w => rw [hg] at hl; exact (nomatch hl)
    | .timeout => rw [hg] at hl; exact (nomatch hl)

theorem forIn_modify (f : β → σ → σ) (l : List β) (s : σ) :
    forIn (fun e (_ : Unit) => modify (f e)) l () s = (l.foldl (fun s e => f e s) s, .ok ()) := by
  induction l generalizing s with
  | nil => rfl
  | cons e t ih => exact ih (f e s)

theorem forIn_check (r : β → Res Unit) (l : List β) (s : σ) (h : l.forM r = .ok ()) :
    forIn (fun e (_ : Unit) => lift (r e)) l () s = (s, .ok ()) := by
  induction l with
  | nil => rfl
  | cons e t ih =>
    change (r e >>= fun _ => t.forM r) = _ at h
    match hr : r e with
    | .ok () =>
      rw [hr] at h
      rw [forIn_cons, bind_ok (s' := s) (a := ()) (by simp [lift, hr])]
      exact ih h
    | .panic w => rw [hr] at h; exact (nomatch h)
    | .timeout => rw [hr] at h; exact (nomatch h)

/-- Replacing the receiver by the value of a computation that does not touch it. -/
theorem replace_eq (r : σ → Res σ) (n : σ) (s : σ) :
    bind get (fun a => bind (lift (r a)) fun c => bind (modify (fun _ => n)) fun _ =>
      modify (fun _ => c)) s =
    match r s with
    | .ok c => (c, .ok ())
    | .panic w => (s, .panic w)
    | .timeout => (s, .timeout) := by
  simp only [bind, get, lift, modify]
  cases r s <;> rfl

end Mut

namespace Poly

theorem modularAssignMut_ok {f r : Poly} {p : Int} (h : f.modularAssign p = .ok r) :
    modularAssignMut p f = (r, .ok ()) := by
  unfold modularAssign at h
  match hl : f.modAssignLoop p with
  | .panic w => rw [hl] at h; exact (nomatch h)
  | .timeout => rw [hl] at h; exact (nomatch h)
  | .ok (g, del) =>
    rw [hl] at h
    simp only [Res.ok_bind] at h
    match hc : (del.foldl remove g).entries.forM (fun e => assertBelow p e.2) with
    | .panic w => rw [hc] at h; exact (nomatch h)
    | .timeout => rw [hc] at h; exact (nomatch h)
    | .ok () =>
      rw [hc] at h
      have hr : del.foldl remove g = r := by simpa using h
      unfold modularAssignMut
      rw [Mut.bind_ok (s' := f) (a := f) rfl]
      rw [Mut.bind_ok (s' := g) (a := del)]
      · rw [Mut.bind_ok (Mut.forIn_modify (fun m s => Poly.remove s m) del g)]
        rw [Mut.bind_ok (s' := del.foldl remove g) (a := del.foldl remove g) rfl]
        have := Mut.forIn_check (σ := Poly) (fun e : Monomial × Int => assertBelow p e.2) _
          (del.foldl remove g) hc
        rw [this, hr]
      · refine Mut.forIn_ok _ _ ?_ _ _ _ _ _ hl
        intro e acc s s' acc' hg
        match hm : modFloor e.2 p with
        | .panic w => rw [hm] at hg; exact (nomatch hg)
        | .timeout => rw [hm] at hg; exact (nomatch hg)
        | .ok c =>
          rw [hm, Res.ok_bind] at hg
          match ha : assertBelow p c with
          | .panic w => rw [ha] at hg; exact (nomatch hg)
          | .timeout => rw [ha] at hg; exact (nomatch hg)
          | .ok () =>
            rw [ha, Res.ok_bind] at hg
            injection hg with hg
            obtain ⟨rfl, rfl⟩ := Prod.mk.inj hg
            simp [Mut.bind, Mut.lift, Mut.modify, Mut.pure, hm, ha]

theorem modularAssignMut_panic {f : Poly} {p : Int} {w : Panic} (h : f.modularAssign p = .panic w) :
    modularAssignMut p f = (f, .panic w) := by
  have hp : ¬ 0 < p := by
    intro hp
    obtain ⟨r, h1, -⟩ := modularAssign_ok f hp
    rw [h1] at h; exact (nomatch h)
  unfold modularAssign modAssignLoop at h
  unfold modularAssignMut
  rw [Mut.bind_ok (s' := f) (a := f) rfl]
  match he : f.entries with
  | [] =>
    rw [he] at h
    simp only [List.foldlM_nil, List.foldl_nil] at h
    change (List.forM f.entries _ >>= fun _ => Res.ok f) = _ at h
    rw [he] at h
    exact (nomatch h)
  | e :: t =>
    rw [he, List.foldlM_cons] at h
    rw [Mut.forIn_cons]
    by_cases h0 : p = 0
    · have hm : modFloor e.2 p = .panic .divByZero := by rw [h0]; rfl
      rw [hm] at h
      injection h with h
      rw [← h]
      simp [Mut.bind, Mut.lift, hm]
    · have hm : modFloor e.2 p = .ok (Int.fmod e.2 p) := modFloor_of h0
      have hc : assertBelow p (Int.fmod e.2 p) = .panic .assertion := by
        have : ¬ Int.fmod e.2 p < p := by
          rw [Int.fmod_eq_emod]
          have := Int.emod_nonneg e.2 h0
          split_ifs <;> omega
        unfold assertBelow
        rw [if_pos h0]; simp only [this, decide_false, rassert_false]
      rw [hm, Res.ok_bind, hc] at h
      injection h with h
      rw [← h]
      simp [Mut.bind, Mut.lift, hm, hc]

end Poly

namespace EllipticCurve

theorem findY_points (ec : EllipticCurve) (pts : List ECPoint) (v : Int) (l : List Int) :
    findY { ec with points := pts } v l = findY ec v l := by
  induction l with
  | nil => rfl
  | cons y t ih => unfold findY; rw [ih]

theorem negate_points (ec : EllipticCurve) (pts : List ECPoint) (P : ECPoint) :
    negate { ec with points := pts } P = negate ec P := rfl

/-- The loop of `create_points` from the receiver whose points are `acc`. -/
theorem createLoop (ec : EllipticCurve) (l : List Int) (acc pts : List ECPoint)
    (h : l.foldlM (fun acc x => do .ok (acc ++ (← ec.pointsAt x))) acc = Res.ok pts) :
    Mut.forIn (fun x (_ : Unit) => createBody x) l () { ec with points := acc } =
      ({ ec with points := pts }, .ok ()) := by
  induction l generalizing acc with
  | nil =>
    have : acc = pts := by simpa [Pure.pure] using h
    rw [this]; rfl
  | cons x t ih =>
    rw [List.foldlM_cons] at h
    match hp : ec.pointsAt x with
    | .panic w => rw [hp] at h; exact (nomatch h)
    | .timeout => rw [hp] at h; exact (nomatch h)
    | .ok P =>
      rw [hp] at h
      have h := ih (acc ++ P) h
      rw [Mut.forIn_cons, Mut.bind_ok (s' := { ec with points := acc ++ P }) (a := ())]
      · exact h
      · unfold pointsAt at hp
        unfold createBody
        rw [Mut.bind_ok (σ := EllipticCurve) (α := EllipticCurve) (s' := { ec with points := acc })
          (a := { ec with points := acc }) rfl]
        simp only [findY_points]
        match hm : modFloor (power x 3 + ec.a * x + ec.b) ec.p with
        | .panic w => rw [hm] at hp; exact (nomatch hp)
        | .timeout => rw [hm] at hp; exact (nomatch hp)
        | .ok v =>
          rw [hm, Res.ok_bind] at hp
          rw [Mut.bind_ok (σ := EllipticCurve) (s' := { ec with points := acc }) (a := v)
            (by simp only [Mut.lift])]
          match hy : ec.findY v (irange 0 ec.p) with
          | .panic w => rw [hy] at hp; exact (nomatch hp)
          | .timeout => rw [hy] at hp; exact (nomatch hp)
          | .ok none =>
            rw [hy] at hp
            injection hp with hp
            simp [Mut.bind, Mut.lift, Mut.pure, ← hp]
          | .ok (some y) =>
            rw [hy, Res.ok_bind] at hp
            match hn : ec.negate ⟨x, y, 1⟩ with
            | .panic w => simp only [hn] at hp; exact (nomatch hp)
            | .timeout => simp only [hn] at hp; exact (nomatch hp)
            | .ok m =>
              simp only [hn, Res.ok_bind] at hp
              injection hp with hp
              subst hp
              by_cases hmp : m = ⟨x, y, 1⟩ <;>
                simp [Mut.bind, Mut.lift, Mut.get, pushMut, Mut.modify, Mut.pure, negate_points, hn, hmp]

/-- The receiver of `create_points` after the loop over the `x` of `l`. -/
theorem createPointsMut_eq {ec ec' : EllipticCurve} (h : ec.createPoints = .ok ec') :
    createPointsMut ec = (ec', .ok ()) := by
  unfold createPoints at h
  match hl : (irange 0 ec.p).foldlM (fun acc x => do .ok (acc ++ (← ec.pointsAt x))) ec.points with
  | .panic w => rw [hl] at h; exact (nomatch h)
  | .timeout => rw [hl] at h; exact (nomatch h)
  | .ok pts =>
    rw [hl] at h
    injection h with h
    unfold createPointsMut
    rw [Mut.bind_ok (s' := ec) (a := ec) rfl, Mut.bind_ok (s' := { ec with points := pts }) (a := ())]
    · simp [pushMut, Mut.modify, ← h]
    · exact createLoop ec _ ec.points pts hl

end EllipticCurve

/-! ### The properties -/

/-- **C13.**  `f.modular_assign(p)` writes the receiver in place, coefficient by coefficient.  When it returns, the receiver is the
canonical residue of C13; when it panics (`p ≤ 0`) the receiver is what it was: no reduced coefficient has been written. -/
theorem C13_modular_assign_in_place (f : Poly) (p : ℤ) :
    (∀ r, f.modularAssign p = .ok r → Poly.modularAssignMut p f = (r, .ok ())) ∧
    (∀ w, f.modularAssign p = .panic w → Poly.modularAssignMut p f = (f, .panic w)) ∧
    ((∃ r, Poly.modularAssignMut p f = (r, .ok ()) ∧ ∀ k, r.coef k = f.coef k % p) ∨
      ∃ w, Poly.modularAssignMut p f = (f, .panic w)) := by
  refine ⟨fun r h => Poly.modularAssignMut_ok h, fun w h => Poly.modularAssignMut_panic h, ?_⟩
  by_cases hp : 0 < p
  · obtain ⟨r, h1, -, -, h4⟩ := C13_modular_assign f p (by omega)
    exact .inl ⟨r, Poly.modularAssignMut_ok h1, h4⟩
  · by_cases hf : f.entries = []
    · have : f = Poly.new := by cases f; subst hf; rfl
      subst this
      exact .inl ⟨Poly.new, Poly.modularAssignMut_ok (C13_zero p).2, fun k => by simp [Poly.coef, Poly.new]⟩
    · obtain ⟨w, hw⟩ := (C13_panics f p (by omega) hf).2
      exact .inr ⟨w, Poly.modularAssignMut_panic hw⟩

/-- **C13.**  `Term::modular_assign` panics for the modulus 0 only, and then leaves the term as it was. -/
theorem C13_term_modular_assign_in_place (t : Term) (n : ℤ) :
    (n = 0 → Term.modularAssignMut n t = (t, .panic .explicit)) ∧
    (n ≠ 0 → ∃ u, t.modularAssign n = .ok u ∧ Term.modularAssignMut n t = (u, .ok ())) := by
  constructor
  · rintro rfl; rfl
  · intro h
    simp [Term.modularAssign, Term.modularAssignMut, Mut.bind, Mut.get, Mut.modify, h]

/-- **C09.**  `a += b` and `a -= b`, term by term in the receiver: they always return, with the receiver `a + b` resp. `a - b`. -/
theorem C09_assign_in_place (a b : Poly) :
    (Poly.addAssignMut b a = (a.add b, .ok ())) ∧
    (∃ c, Poly.subAssignMut b a = (c, .ok ()) ∧ c.val = a.val - b.val) := by
  exact ⟨Mut.forIn_modify (fun e s => Poly.addEntry s e) b.entries a,
    a.subAssign b, Mut.forIn_modify (fun e s => Poly.subEntry s e) b.entries a, Poly.lin_subAssign _ _ _⟩

/-- **C10.**  `a *= b`: the receiver becomes the product, or (exponent overflow) the call panics and the receiver is unchanged —
the `clear()` comes after the product. -/
theorem C10_mul_assign_in_place (a b : Poly) :
    (∃ c, a.mul b = .ok c ∧ c.val = a.val * b.val ∧ Poly.mulAssignMut b a = (c, .ok ())) ∨
    (∃ w, a.mul b = .panic w ∧ Poly.mulAssignMut b a = (a, .panic w)) := by
  have h := Mut.replace_eq (fun a : Poly => a.mul b) Poly.new a
  change Poly.mulAssignMut b a = _ at h
  match hr : a.mul b with
  | .ok c => rw [hr] at h; exact .inl ⟨c, rfl, C10_mul a b c hr, h⟩
  | .panic w => rw [hr] at h; exact .inr ⟨w, rfl, h⟩
  | .timeout => exact absurd hr (Poly.mul_ne_timeout a b)

/-- **C28.**  `a /= b` and `a /= t`: the receiver becomes the quotient of C28, or the call panics and the receiver is unchanged. -/
theorem C28_div_assign_in_place (a b : Poly) (t : Term) :
    ((∃ c, a.div b = .ok c ∧ Poly.divAssignMut b a = (c, .ok ())) ∨
      (∃ w, a.div b = .panic w ∧ Poly.divAssignMut b a = (a, .panic w))) ∧
    ((∃ c, a.divTerm t = .ok c ∧ Poly.divAssignTermMut t a = (c, .ok ())) ∨
      (∃ w, a.divTerm t = .panic w ∧ Poly.divAssignTermMut t a = (a, .panic w))) := by
  constructor
  · have h := Mut.replace_eq (fun a : Poly => a.div b) Poly.new a
    change Poly.divAssignMut b a = _ at h
    match hr : a.div b with
    | .ok c => rw [hr] at h; exact .inl ⟨c, rfl, h⟩
    | .panic w => rw [hr] at h; exact .inr ⟨w, rfl, h⟩
    | .timeout => exact absurd hr (Poly.div_ne_timeout a b)
  · have h := Mut.replace_eq (fun a : Poly => a.divTerm t) Poly.new a
    change Poly.divAssignTermMut t a = _ at h
    match hr : a.divTerm t with
    | .ok c => rw [hr] at h; exact .inl ⟨c, rfl, h⟩
    | .panic w => rw [hr] at h; exact .inr ⟨w, rfl, h⟩
    | .timeout => exact absurd hr (Poly.div_ne_timeout a _)

/-- **C26.**  `f.omit_high_order_q(N)`: the receiver is truncated, or the call panics and the receiver is unchanged. -/
theorem C26_omit_in_place (f : Poly) (N : ℤ) :
    (∃ c, f.omitHighOrderQ N = .ok c ∧ Poly.omitHighOrderQMut N f = (c, .ok ())) ∨
    (∃ w, f.omitHighOrderQ N = .panic w ∧ Poly.omitHighOrderQMut N f = (f, .panic w)) := by
  simp only [Poly.omitHighOrderQ, Poly.omitHighOrderQMut, Mut.bind, Mut.get, Mut.lift, Mut.modify,
    rassert, chk]
  cases f.hasX <;> cases f.hasY <;> by_cases h : InI32 (N + 1) <;> simp [h]

/-- **C45.**  `create_points` pushes into the receiver as it goes; it never panics, and leaves the curve of C45. -/
theorem C45_create_points_in_place (ec : EllipticCurve) :
    ∃ L, EllipticCurve.createPointsMut ec =
      ({ ec with points := ec.points ++ L ++ [⟨0, 1, 0⟩] }, .ok ()) ∧
      ec.createPoints = .ok { ec with points := ec.points ++ L ++ [⟨0, 1, 0⟩] } := by
  obtain ⟨L, h, -⟩ := C45_any_modulus ec
  exact ⟨L, EllipticCurve.createPointsMut_eq h, h⟩

/-! ### Concrete cases -/

-- `7 x + 3`: modulo 7 the receiver becomes `3`; modulo 0 and -7 the call panics and both terms are still there
example : let f := ((TermBuilder.new.coef 7).xpow 1).build.add (TermBuilder.new.coef 3).build
    ((Poly.modularAssignMut 7 f).1.entries.map (·.2) = [3] ∧ (Poly.modularAssignMut 7 f).2 = .ok ()) ∧
    (Poly.modularAssignMut 0 f = (f, .panic .divByZero)) ∧
    (Poly.modularAssignMut (-7) f = (f, .panic .assertion)) ∧ f.entries.length = 2 := by
  decide +kernel

-- `x^(2^31 - 1) *= x` overflows and leaves the receiver; `x *= x` squares it
example : let x := ((TermBuilder.new).xpow 1).build.toPol
    let f := ((TermBuilder.new).xpow 2147483647).build.toPol
    (Poly.mulAssignMut x f = (f, .panic .overflow)) ∧ f.entries.length = 1 ∧
    ((Poly.mulAssignMut x x).1.entries.map (·.1.xpow) = [2]) := by decide +kernel

-- `2 x /= 0` panics and leaves `2 x`; `(2 x) /= 2` is `x`
example : let f := ((TermBuilder.new.coef 2).xpow 1).build.toPol
    (Poly.divAssignMut Poly.new f = (f, .panic .explicit)) ∧
    ((Poly.divAssignTermMut (TermBuilder.new.coef 2).build f).1.entries.map (·.2) = [1]) := by
  decide +kernel

-- truncating `x` panics and leaves it; `q^3 + q` to order 1 keeps `q`
example : let f := ((TermBuilder.new).xpow 1).build.toPol
    let g := ((TermBuilder.new).qpow 3).build.add ((TermBuilder.new).qpow 1).build
    (Poly.omitHighOrderQMut 1 f = (f, .panic .assertion)) ∧
    ((Poly.omitHighOrderQMut 1 g).1.entries.map (·.1.qpow) = [1]) ∧ g.entries.length = 2 := by
  decide +kernel

-- the points of `y² = x³ + 1` modulo 5, pushed one after the other
example : (EllipticCurve.createPointsMut (EllipticCurve.newRaw 0 1 5)).1.points.map (fun P => (P.x, P.y, P.z)) =
    [(0, 1, 1), (0, 4, 1), (2, 2, 1), (2, 3, 1), (4, 0, 1), (0, 1, 0)] := by decide +kernel

end EC
