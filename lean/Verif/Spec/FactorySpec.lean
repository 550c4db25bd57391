import Verif.Model.World

/-!
# Specification of parameter objects and option factories

Parameter objects are given by the list of `setParameter` calls that built them, oldest first.
-/

namespace Verif.Spec
variable {F : Type}

/-- The value given by the last `setParameter` call for the name. -/
def lastSet (kvs : List (String × Param F)) (name : String) : Option (Param F) :=
  (kvs.reverse.find? (fun kv => decide (kv.1 = name))).map (·.2)

/-- The strike parameters of a product. -/
def strikeNames : OptClass → List String
  | .doubleDigital => ["K1", "K2"]
  | .floatingLookback => []
  | _ => ["K"]

/-- The parameters a product needs. -/
def needed (f : OptClass) : List String :=
  ["ticker", "T"] ++ strikeNames f ++
    (if f = .knockIn ∨ f = .knockOut then ["B", "direction"] else [])

/-- The type the parameter must have. -/
def HasType (name : String) (v : Param F) : Prop :=
  if name = "ticker" then ∃ s, v = .str s
  else if name = "direction" then ∃ d, v = .dir d
  else ∃ x, v = .dbl x

variable [Fl F]

/-- The payoff described by the parameters: the product's payoff on the given strikes, which must
not be negative. -/
def PayoffOf (f : OptClass) (kvs : List (String × Param F)) (ty : PayoffType) (p : Payoff F) :
    Prop :=
  match f with
  | .doubleDigital => ∃ a b, lastSet kvs "K1" = some (.dbl a) ∧ lastSet kvs "K2" = some (.dbl b) ∧
      Fl.lt a (lit 0) = false ∧ Fl.lt b (lit 0) = false ∧ p = .doubleDigital a b
  | .floatingLookback => p = .floatingLookback ty
  | .digital => ∃ k, lastSet kvs "K" = some (.dbl k) ∧ Fl.lt k (lit 0) = false ∧ p = .digital ty k
  | _ => ∃ k, lastSet kvs "K" = some (.dbl k) ∧ Fl.lt k (lit 0) = false ∧ p = .vanilla ty k

/-- The barrier described by the parameters (only barrier products have one). -/
def BarrierOf (f : OptClass) (kvs : List (String × Param F))
    (b : Option (F × BarrierDirection)) : Prop :=
  match f with
  | .knockIn | .knockOut => ∃ B d, lastSet kvs "B" = some (.dbl B) ∧
      lastSet kvs "direction" = some (.dir d) ∧ b = some (B, d)
  | _ => b = none

/-- `o` is the option described by the parameters: all of them present with the right type, strikes
and maturity not negative. -/
def Contract (f : OptClass) (kvs : List (String × Param F)) (ty : PayoffType) (o : OptObj F) :
    Prop :=
  o.cls = f ∧ lastSet kvs "ticker" = some (.str o.ticker) ∧ lastSet kvs "T" = some (.dbl o.T) ∧
    Fl.lt o.T (lit 0) = false ∧ PayoffOf f kvs ty o.payoff ∧ BarrierOf f kvs o.barrier

/-- The true reasons why the parameters cannot make an option of class `f`, with the text a user
should see. -/
inductive Reason (f : OptClass) (kvs : List (String × Param F)) (m : Market F) : String → Prop
  | missing (name : String) (hn : name ∈ needed f) (h : lastSet kvs name = none) :
      Reason f kvs m ("Parameter not found: " ++ name)
  | wrongType (name : String) (v : Param F) (hn : name ∈ needed f)
      (h : lastSet kvs name = some v) (ht : ¬ HasType name v) :
      Reason f kvs m ("Parameter type mismatch for: " ++ name)
  | strike (k : F) (h : lastSet kvs "K" = some (.dbl k)) (hk : Fl.lt k (lit 0) = true)
      (hn : "K" ∈ needed f) : Reason f kvs m "Strike price (K) must be positive."
  | lowerStrike (k : F) (h : lastSet kvs "K1" = some (.dbl k)) (hk : Fl.lt k (lit 0) = true)
      (hn : "K1" ∈ needed f) : Reason f kvs m "Lower Strike price (K_L) must be positive."
  | upperStrike (k : F) (h : lastSet kvs "K2" = some (.dbl k)) (hk : Fl.lt k (lit 0) = true)
      (hn : "K2" ∈ needed f) : Reason f kvs m "Upper Strike price (K_U) must be positive."
  | maturity (T : F) (h : lastSet kvs "T" = some (.dbl T)) (hT : Fl.lt T (lit 0) = true) :
      Reason f kvs m "Time to expiration (T) must be positive."
  | ticker (t : String) (h : lastSet kvs "ticker" = some (.str t))
      (ht : Res.Throws .invalidArgument (World.outcome m (.getStockData t))) :
      Reason f kvs m (t ++ " Stock data not found.")

end Verif.Spec
