import Verif.Num.Dbl
import Verif.Model.Control
import Verif.Model.StockModel

/-!
# Observing square roots

The model is generic in the number type.  `Logged F` is a number type whose values carry the
arguments of all square roots used to compute them; running the model over it makes the square roots
observable.  `Logged.val` forgets the log.
-/

set_option linter.unusedSectionVars false

namespace Verif.Spec

/-- A number together with the arguments of the square roots in its computation. -/
structure Logged (F : Type) where
  val : F
  args : List F

namespace Logged
variable {F : Type}

/-- A number that was not computed. -/
def of (x : F) : Logged F := ⟨x, []⟩

instance [Add F] : Add (Logged F) := ⟨fun a b => ⟨a.val + b.val, a.args ++ b.args⟩⟩
instance [Sub F] : Sub (Logged F) := ⟨fun a b => ⟨a.val - b.val, a.args ++ b.args⟩⟩
instance [Mul F] : Mul (Logged F) := ⟨fun a b => ⟨a.val * b.val, a.args ++ b.args⟩⟩
instance [Div F] : Div (Logged F) := ⟨fun a b => ⟨a.val / b.val, a.args ++ b.args⟩⟩
instance [Neg F] : Neg (Logged F) := ⟨fun a => ⟨-a.val, a.args⟩⟩

instance [Fl F] : Fl (Logged F) where
  lit q := of (lit q)
  exp a := ⟨Fl.exp a.val, a.args⟩
  log a := ⟨Fl.log a.val, a.args⟩
  sqrt a := ⟨Fl.sqrt a.val, a.val :: a.args⟩
  fabs a := ⟨Fl.fabs a.val, a.args⟩
  lt a b := Fl.lt a.val b.val
  le a b := Fl.le a.val b.val
  eqb a b := Fl.eqb a.val b.val

instance [FlInt F] : FlInt (Logged F) where
  toInt a := FlInt.toInt a.val

/-- All recorded arguments of square roots satisfy `P`. -/
def All (P : F → Prop) (x : Logged F) : Prop := ∀ a ∈ x.args, P a

section
variable [Add F] [Sub F] [Mul F] [Div F] [Neg F] [Fl F]
@[simp] theorem val_of (x : F) : (of x).val = x := rfl
@[simp] theorem args_of (x : F) : (of x).args = [] := rfl
@[simp] theorem val_add (a b : Logged F) : (a + b).val = a.val + b.val := rfl
@[simp] theorem val_sub (a b : Logged F) : (a - b).val = a.val - b.val := rfl
@[simp] theorem val_mul (a b : Logged F) : (a * b).val = a.val * b.val := rfl
@[simp] theorem val_div (a b : Logged F) : (a / b).val = a.val / b.val := rfl
@[simp] theorem val_neg (a : Logged F) : (-a).val = -a.val := rfl
@[simp] theorem val_lit (q : ℚ) : (lit q : Logged F).val = lit q := rfl
@[simp] theorem val_exp (a : Logged F) : (Fl.exp a).val = Fl.exp a.val := rfl
@[simp] theorem val_log (a : Logged F) : (Fl.log a).val = Fl.log a.val := rfl
@[simp] theorem val_sqrt (a : Logged F) : (Fl.sqrt a).val = Fl.sqrt a.val := rfl
@[simp] theorem lt_iff (a b : Logged F) : Fl.lt a b = Fl.lt a.val b.val := rfl
@[simp] theorem le_iff (a b : Logged F) : Fl.le a b = Fl.le a.val b.val := rfl
@[simp] theorem gt_iff (a b : Logged F) : Fl.gt a b = Fl.gt a.val b.val := rfl
@[simp] theorem ge_iff (a b : Logged F) : Fl.ge a b = Fl.ge a.val b.val := rfl
@[simp] theorem val_max (a b : Logged F) : (Fl.max a b).val = Fl.max a.val b.val := by
  simp only [Fl.max, lt_iff]; split <;> rfl

variable {P : F → Prop} {a b : Logged F}
theorem All.of (x : F) : (of x).All P := by simp [All]
theorem All.lit (q : ℚ) : (lit q : Logged F).All P := All.of _
theorem All.add (ha : a.All P) (hb : b.All P) : (a + b).All P := by
  intro x hx
  rcases List.mem_append.mp (show x ∈ a.args ++ b.args from hx) with h | h
  · exact ha x h
  · exact hb x h
theorem All.sub (ha : a.All P) (hb : b.All P) : (a - b).All P := by
  intro x hx
  rcases List.mem_append.mp (show x ∈ a.args ++ b.args from hx) with h | h
  · exact ha x h
  · exact hb x h
theorem All.mul (ha : a.All P) (hb : b.All P) : (a * b).All P := by
  intro x hx
  rcases List.mem_append.mp (show x ∈ a.args ++ b.args from hx) with h | h
  · exact ha x h
  · exact hb x h
theorem All.div (ha : a.All P) (hb : b.All P) : (a / b).All P := by
  intro x hx
  rcases List.mem_append.mp (show x ∈ a.args ++ b.args from hx) with h | h
  · exact ha x h
  · exact hb x h
theorem All.neg (ha : a.All P) : (-a).All P := ha
theorem All.exp (ha : a.All P) : (Fl.exp a).All P := ha
theorem All.log (ha : a.All P) : (Fl.log a).All P := ha
theorem All.sqrt (ha : a.All P) (h : P a.val) : (Fl.sqrt a).All P := by
  intro x hx
  rcases List.mem_cons.mp (show x ∈ a.val :: a.args from hx) with rfl | h'
  · exact h
  · exact ha x h'
theorem All.max (ha : a.All P) (hb : b.All P) : (Fl.max a b).All P := by
  unfold Fl.max; split <;> assumption
end

/-- Forget the logs in the parameters of a distribution. -/
def dist : Dist (Logged F) → Dist F
  | .stdNormal => .stdNormal
  | .normal a b => .normal a.val b.val
  | .poisson a => .poisson a.val
  | .uniform a b => .uniform a.val b.val
  | .exponential a => .exponential a.val
  | .gamma a b => .gamma a.val b.val

/-- A generator whose draws carry empty logs. -/
def gen {G : Type} (g : Gen G F) : Gen G (Logged F) where
  draw d := of <$> g.draw (dist d)
  newDist d := g.newDist (dist d)

/-- Forget the logs in the data read at the start of a simulation. -/
def view (v : View (Logged F)) : View F :=
  ⟨v.price.val, v.sigma.val, v.coupon.map val, v.r.val⟩

/-- Two discretisations compute the same values. -/
def SameDisc (d : CIR (Logged F)) (d' : CIR F) : Prop :=
  ∀ V dt κ θ σ z, (d.update V dt κ θ σ z).val = d'.update V.val dt.val κ.val θ.val σ.val z.val

end Logged
end Verif.Spec
