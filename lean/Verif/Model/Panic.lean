import Verif.Model.Polynomial
import Verif.Model.EllipticCurve

/-! The `&mut self` methods with the receiver made explicit: what the receiver holds when the
call *panics* (a caller that catches the panic still owns it).  `Mut σ α` is a program that works
on a receiver of type `σ` in place; unlike in `Res`, the writes made before a panic stay. -/

namespace EC

/-- A program on a receiver of type `σ`: the receiver it leaves behind, and the outcome. -/
def Mut (σ α : Type) : Type := σ → σ × Res α

namespace Mut

variable {σ α β : Type}

/-- Do nothing. -/
def pure (a : α) : Mut σ α := fun s => (s, .ok a)

/-- Sequencing: a panic keeps the writes made so far and aborts the rest. -/
def bind (x : Mut σ α) (f : α → Mut σ β) : Mut σ β := fun s =>
  match x s with
  | (s', .ok a) => f a s'
  | (s', .panic w) => (s', .panic w)
  | (s', .timeout) => (s', .timeout)

/-- A computation that does not touch the receiver. -/
def lift (r : Res α) : Mut σ α := fun s => (s, r)

/-- Read the receiver. -/
def get : Mut σ σ := fun s => (s, .ok s)

/-- A write to the receiver. -/
def modify (f : σ → σ) : Mut σ Unit := fun s => (f s, .ok ())

/-- `for e in l { body(e, acc) }` with an accumulator `acc` for the local variables. -/
def forIn (body : β → α → Mut σ α) : List β → α → Mut σ α
  | [], acc => pure acc
  | e :: t, acc => bind (body e acc) (forIn body t)

end Mut

namespace Poly

/-- `modular_assign(p)` write by write; src/polynomial.rs:379-405.  The first loop assigns the
reduced coefficient in the receiver (`*coef = c`, `:386`) after the `assert!` of `:384`. -/
def modularAssignMut (p : Int) : Mut Poly Unit :=
  Mut.bind Mut.get fun self =>
  Mut.bind (Mut.forIn (fun e (del : List Monomial) =>
      Mut.bind (Mut.lift (modFloor e.2 p)) fun c =>
      Mut.bind (Mut.lift (assertBelow p c)) fun _ =>
      Mut.bind (Mut.modify (fun s => s.insert e.1 c)) fun _ =>
      Mut.pure (if c = 0 then del ++ [e.1] else del)) self.entries []) fun del =>
  Mut.bind (Mut.forIn (fun m (_ : Unit) => Mut.modify (fun s => s.remove m)) del ()) fun _ =>
  Mut.bind Mut.get fun self =>
  Mut.forIn (fun e (_ : Unit) => Mut.lift (assertBelow p e.2)) self.entries ()

/-- `*=` write by write: product into a temporary, `clear()`, assignment;
src/polynomial.rs:139-143. -/
def mulAssignMut (b : Poly) : Mut Poly Unit :=
  Mut.bind Mut.get fun a =>
  Mut.bind (Mut.lift (a.mul b)) fun c =>
  Mut.bind (Mut.modify (fun _ => new)) fun _ =>
  Mut.modify (fun _ => c)

/-- `/=` write by write; src/polynomial.rs:176-180. -/
def divAssignMut (b : Poly) : Mut Poly Unit :=
  Mut.bind Mut.get fun a =>
  Mut.bind (Mut.lift (a.div b)) fun c =>
  Mut.bind (Mut.modify (fun _ => new)) fun _ =>
  Mut.modify (fun _ => c)

/-- `Polynomial /= Term` write by write; src/polynomial.rs:183-187. -/
def divAssignTermMut (b : Term) : Mut Poly Unit :=
  Mut.bind Mut.get fun a =>
  Mut.bind (Mut.lift (a.div b.toPol)) fun c =>
  Mut.bind (Mut.modify (fun _ => new)) fun _ =>
  Mut.modify (fun _ => c)

/-- `+=` write by write: one map update for each term of `b`; src/polynomial.rs:47-58. -/
def addAssignMut (b : Poly) : Mut Poly Unit :=
  Mut.forIn (fun e (_ : Unit) => Mut.modify (fun s => s.addEntry e)) b.entries ()

/-- `-=` write by write; src/polynomial.rs:88-99. -/
def subAssignMut (b : Poly) : Mut Poly Unit :=
  Mut.forIn (fun e (_ : Unit) => Mut.modify (fun s => s.subEntry e)) b.entries ()

/-- `omit_high_order_q(order)` write by write; src/polynomial.rs:664-674. -/
def omitHighOrderQMut (order : Int) : Mut Poly Unit :=
  Mut.bind Mut.get fun self =>
  Mut.bind (Mut.lift (rassert (!self.hasX))) fun _ =>
  Mut.bind (Mut.lift (rassert (!self.hasY))) fun _ =>
  Mut.bind (Mut.lift (chk (order + 1))) fun q =>
  Mut.modify (fun s => s.splitOff { xpow := 0, ypow := 0, qpow := q, var := SubVar.new })

end Poly

/-- `Term::modular_assign(n)` write by write; src/term.rs:268-274. -/
def Term.modularAssignMut (n : Int) : Mut Term Unit :=
  Mut.bind Mut.get fun self =>
  if n = 0 then Mut.lift (.panic .explicit)
  else Mut.modify (fun s => { s with coef := Int.fmod self.coef n })

namespace EllipticCurve

/-- `self.points.push(..)`. -/
def pushMut (P : ECPoint) : Mut EllipticCurve Unit :=
  Mut.modify (fun s => { s with points := s.points ++ [P] })

/-- Body of the outer loop of `create_points`, write by write; src/elliptic_curve.rs:150-168.
The inner loop reads only `a`, `b` and `p` before its `break`, so it is `findY`. -/
def createBody (x : Int) : Mut EllipticCurve Unit :=
  Mut.bind Mut.get fun s =>
  Mut.bind (Mut.lift (modFloor (power x 3 + s.a * x + s.b) s.p)) fun xpol =>
  Mut.bind (Mut.lift (s.findY xpol (irange 0 s.p))) fun r =>
  match r with
  | none => Mut.pure ()
  | some y =>
    Mut.bind (pushMut { x := x, y := y, z := 1 }) fun _ =>
    Mut.bind Mut.get fun s =>
    Mut.bind (Mut.lift (s.negate { x := x, y := y, z := 1 })) fun m =>
    if m ≠ { x := x, y := y, z := 1 } then pushMut m else Mut.pure ()

/-- `create_points()` write by write; src/elliptic_curve.rs:149-170. -/
def createPointsMut : Mut EllipticCurve Unit :=
  Mut.bind Mut.get fun self =>
  Mut.bind (Mut.forIn (fun x (_ : Unit) => createBody x) (irange 0 self.p) ()) fun _ =>
  pushMut ECPoint.infinity

end EllipticCurve

end EC
