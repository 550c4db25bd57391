import Verif.Spec.FactorySpec
import Verif.Lemmas.World

/-!
# Lemmas about parameter objects and factories
-/

set_option linter.unusedSectionVars false

namespace Verif
variable {F : Type}

namespace ParameterObject

theorem find?_setParameter (p : ParameterObject F) (n n' : String) (v : Param F) :
    (p.setParameter n v).find? n' = if n = n' then some v else p.find? n' := by
  obtain ⟨l⟩ := p
  unfold setParameter find?
  simp only
  induction l with
  | nil => by_cases h : n = n' <;> simp [assign, h]
  | cons kv l ih =>
    obtain ⟨k, w⟩ := kv
    by_cases hk : k = n
    · subst hk
      by_cases h : k = n' <;> simp [assign, h]
    · simp only [assign, beq_iff_eq, hk, if_false]
      by_cases h : k = n'
      · subst h
        simp [Ne.symm hk]
      · simp only [List.find?_cons, beq_iff_eq, h, if_false]
        have : (k == n') = false := by simp [h]
        simp only [this]
        exact ih

theorem find?_mkParams [Fl F] (kvs : List (String × Param F)) (n : String) :
    (World.mkParams kvs).find? n = Spec.lastSet kvs n := by
  induction kvs using List.reverseRecOn with
  | nil => simp [World.mkParams, Spec.lastSet, empty, find?]
  | append_singleton kvs kv ih =>
    unfold World.mkParams at *
    rw [List.foldl_append]
    simp only [List.foldl_cons, List.foldl_nil, find?_setParameter, ih, Spec.lastSet,
      List.reverse_append, List.reverse_cons, List.reverse_nil, List.nil_append,
      List.singleton_append, List.find?_cons]
    by_cases h : kv.1 = n <;> simp [h]

theorem getParameter_ok_iff {α : Type} (proj : Param F → Option α) (p : ParameterObject F)
    (n : String) (a : α) :
    getParameter proj p n = .ok a ↔ ∃ v, p.find? n = some v ∧ proj v = some a := by
  unfold getParameter
  cases h : p.find? n with
  | none => simp
  | some v => cases hv : proj v <;> simp [hv]

end ParameterObject

theorem Param.asStr_iff (v : Param F) (s : String) : v.asStr = some s ↔ v = .str s := by
  cases v <;> simp [Param.asStr]
theorem Param.asDbl_iff (v : Param F) (x : F) : v.asDbl = some x ↔ v = .dbl x := by
  cases v <;> simp [Param.asDbl]
theorem Param.asDir_iff (v : Param F) (d : BarrierDirection) : v.asDir = some d ↔ v = .dir d := by
  cases v <;> simp [Param.asDir]
theorem Param.asInt_iff (v : Param F) (i : Int) : v.asInt = some i ↔ v = .int i := by
  cases v <;> simp [Param.asInt]

variable [Fl F]
open ParameterObject World

theorem getStr_iff (kvs : List (String × Param F)) (n s : String) :
    getParameter Param.asStr (mkParams kvs) n = .ok s ↔ Spec.lastSet kvs n = some (.str s) := by
  rw [getParameter_ok_iff, find?_mkParams]; simp [Param.asStr_iff]
theorem getDbl_iff (kvs : List (String × Param F)) (n : String) (x : F) :
    getParameter Param.asDbl (mkParams kvs) n = .ok x ↔ Spec.lastSet kvs n = some (.dbl x) := by
  rw [getParameter_ok_iff, find?_mkParams]; simp [Param.asDbl_iff]
theorem getDir_iff (kvs : List (String × Param F)) (n : String) (d : BarrierDirection) :
    getParameter Param.asDir (mkParams kvs) n = .ok d ↔ Spec.lastSet kvs n = some (.dir d) := by
  rw [getParameter_ok_iff, find?_mkParams]; simp [Param.asDir_iff]
theorem getInt_iff (kvs : List (String × Param F)) (n : String) (i : Int) :
    getParameter Param.asInt (mkParams kvs) n = .ok i ↔ Spec.lastSet kvs n = some (.int i) := by
  rw [getParameter_ok_iff, find?_mkParams]; simp [Param.asInt_iff]

namespace OptionModel

theorem checkArgs_ok_iff (p : ParameterObject F) (l : List Arg) :
    checkArgs p l = .ok () ↔ ∀ a ∈ l, checkArg p a = .ok () := by
  induction l with
  | nil => simp [checkArgs]
  | cons a l ih =>
    simp only [checkArgs, Res.bind_eq_ok, ih, List.mem_cons, forall_eq_or_imp]
    constructor
    · rintro ⟨u, h1, h2⟩; exact ⟨h1, h2⟩
    · rintro ⟨h1, h2⟩; exact ⟨(), h1, h2⟩

theorem checkArg_ok_iff (p : ParameterObject F) (a : Arg) :
    checkArg p a = .ok () ↔ match a with
      | .ticker => ∃ s, getParameter Param.asStr p "ticker" = .ok s
      | .T => ∃ x, getParameter Param.asDbl p "T" = .ok x
      | .B => ∃ x, getParameter Param.asDbl p "B" = .ok x
      | .direction => ∃ d, getParameter Param.asDir p "direction" = .ok d
      | .K => ∃ x, getParameter Param.asDbl p "K" = .ok x
      | .K1 => ∃ x, getParameter Param.asDbl p "K1" = .ok x
      | .K2 => ∃ x, getParameter Param.asDbl p "K2" = .ok x := by
  cases a <;> simp only [checkArg, Res.bind_eq_ok] <;>
    exact ⟨fun ⟨a, h, _⟩ => ⟨a, h⟩, fun ⟨a, h⟩ => ⟨a, h, rfl⟩⟩

theorem checkStrike_ok_iff (k : F) :
    Payoff.checkStrike k = .ok () ↔ Fl.lt k (lit 0) = false := by
  unfold Payoff.checkStrike
  cases h : Fl.lt k (lit 0) <;> simp

theorem notCallPut_false {ty : PayoffType} (h : ty = .call ∨ ty = .put) :
    Payoff.notCallPut ty = false := by
  rcases h with rfl | rfl <;> rfl

theorem mkVanilla_ok_iff {ty : PayoffType} (h : ty = .call ∨ ty = .put) (k : F) (p : Payoff F) :
    Payoff.mkVanilla ty k = .ok p ↔ Fl.lt k (lit 0) = false ∧ p = .vanilla ty k := by
  unfold Payoff.mkVanilla Payoff.checkStrike
  rw [notCallPut_false h]
  cases hk : Fl.lt k (lit 0)
  · simp only [Bool.false_eq_true, if_false, Res.pure_eq, Res.bind_ok, Res.ok.injEq, true_and]
    exact eq_comm
  · simp
theorem mkDigital_ok_iff {ty : PayoffType} (h : ty = .call ∨ ty = .put) (k : F) (p : Payoff F) :
    Payoff.mkDigital ty k = .ok p ↔ Fl.lt k (lit 0) = false ∧ p = .digital ty k := by
  unfold Payoff.mkDigital Payoff.checkStrike
  rw [notCallPut_false h]
  cases hk : Fl.lt k (lit 0)
  · simp only [Bool.false_eq_true, if_false, Res.pure_eq, Res.bind_ok, Res.ok.injEq, true_and]
    exact eq_comm
  · simp
theorem mkDoubleDigital_ok_iff (a b : F) (p : Payoff F) :
    Payoff.mkDoubleDigital a b = .ok p ↔
      Fl.lt a (lit 0) = false ∧ Fl.lt b (lit 0) = false ∧ p = .doubleDigital a b := by
  unfold Payoff.mkDoubleDigital
  cases h1 : Fl.lt a (lit 0) <;> cases h2 : Fl.lt b (lit 0) <;> simp [eq_comm]

theorem createSpecificPayoff_ok_iff (f : Factory) {ord : List Arg} (hord : ord.Perm f.payoffArgs)
    (kvs : List (String × Param F)) {ty : PayoffType} (hty : ty = .call ∨ ty = .put)
    (p : Payoff F) :
    createSpecificPayoff f ord (mkParams kvs) ty = .ok p ↔ Spec.PayoffOf f kvs ty p := by
  have hck : checkArgs (mkParams kvs) ord = .ok () ↔
      ∀ a ∈ f.payoffArgs, checkArg (mkParams kvs) a = .ok () := by
    rw [checkArgs_ok_iff]
    exact ⟨fun h a ha => h a (hord.mem_iff.mpr ha), fun h a ha => h a (hord.mem_iff.mp ha)⟩
  have hvan : ∀ (mk : PayoffType → F → Res (Payoff F)) (c : PayoffType → F → Payoff F),
      (∀ k p, mk ty k = .ok p ↔ Fl.lt k (lit 0) = false ∧ p = c ty k) →
      ((∀ a ∈ [Arg.K], checkArg (mkParams kvs) a = .ok ()) ∧
        (getParameter Param.asDbl (mkParams kvs) "K" >>= fun k => mk ty k) = .ok p ↔
       ∃ k, Spec.lastSet kvs "K" = some (.dbl k) ∧ Fl.lt k (lit 0) = false ∧ p = c ty k) := by
    intro mk c hmk
    simp only [List.mem_singleton, forall_eq, checkArg_ok_iff, Res.bind_eq_ok, hmk, getDbl_iff]
    constructor
    · rintro ⟨-, h⟩; exact h
    · rintro ⟨k, h⟩; exact ⟨⟨k, h.1⟩, k, h⟩
  have hbind : ∀ (body : Res (Payoff F)),
      (checkArgs (mkParams kvs) ord >>= fun _ => body) = .ok p ↔
      (∀ a ∈ f.payoffArgs, checkArg (mkParams kvs) a = .ok ()) ∧ body = .ok p := by
    intro body
    rw [Res.bind_eq_ok]
    constructor
    · rintro ⟨_, h1, h2⟩; exact ⟨hck.mp h1, h2⟩
    · rintro ⟨h1, h2⟩; exact ⟨(), hck.mpr h1, h2⟩
  unfold createSpecificPayoff
  rw [hbind]
  cases f <;> simp only [Factory.payoffArgs, Spec.PayoffOf]
  case doubleDigital =>
    simp only [List.mem_cons, List.not_mem_nil, or_false, forall_eq_or_imp, forall_eq,
      checkArg_ok_iff, Res.bind_eq_ok, mkDoubleDigital_ok_iff, getDbl_iff]
    constructor
    · rintro ⟨-, a, h1, b, h2, h3⟩; exact ⟨a, b, h1, h2, h3⟩
    · rintro ⟨a, b, h1, h2, h3⟩; exact ⟨⟨⟨a, h1⟩, b, h2⟩, a, h1, b, h2, h3⟩
  case floatingLookback =>
    simp [Payoff.mkFloatingLookback, notCallPut_false hty, eq_comm]
  case digital => exact hvan _ _ (mkDigital_ok_iff hty)
  all_goals exact hvan _ _ (mkVanilla_ok_iff hty)

theorem construct_ok_iff (cls : OptClass) (t : String) (p : Payoff F) (T : F)
    (b : Option (F × BarrierDirection)) (m : Market F) (o : OptObj F) :
    construct cls t p T b m = (.ok o, m) ↔
      Fl.lt T (lit 0) = false ∧ Res.IsOk (outcome m (.getStockData t)) ∧
        o = ⟨cls, t, p, T, b⟩ := by
  unfold construct
  rw [outcome_getStockData]
  cases h : Fl.lt T (lit 0) with
  | true => simp [Eff.lift]
  | false =>
    simp only [Bool.false_eq_true, if_false, true_and]
    cases hp : mapFind t m.stockDataMap with
    | none => simp [Eff.bind_apply, Market.getStockData, hp, invalidArg]
    | some q => simp [Eff.bind_apply, Market.getStockData, hp, eq_comm]

/-- `lift r >>= f` returns normally exactly when both do. -/
theorem lift_bind_ok {σ α β : Type} (r : Res α) (f : α → Eff σ β) (s s' : σ) (b : β) :
    (Eff.lift r >>= f) s = (.ok b, s') ↔ ∃ a, r = .ok a ∧ f a s = (.ok b, s') := by
  cases r <;> simp [Eff.bind_apply]

theorem createSpecificOption_ok_iff (f : Factory) {ord : List Arg} (hord : ord.Perm f.optionArgs)
    (kvs : List (String × Param F)) (p : Payoff F) (m : Market F) (o : OptObj F) :
    createSpecificOption f ord (mkParams kvs) p m = (.ok o, m) ↔
      o.cls = f ∧ Spec.lastSet kvs "ticker" = some (.str o.ticker) ∧
      Spec.lastSet kvs "T" = some (.dbl o.T) ∧ Fl.lt o.T (lit 0) = false ∧ o.payoff = p ∧
      Spec.BarrierOf f kvs o.barrier ∧ Res.IsOk (outcome m (.getStockData o.ticker)) := by
  have hck : checkArgs (mkParams kvs) ord = .ok () ↔
      ∀ a ∈ f.optionArgs, checkArg (mkParams kvs) a = .ok () := by
    rw [checkArgs_ok_iff]
    exact ⟨fun h a ha => h a (hord.mem_iff.mpr ha), fun h a ha => h a (hord.mem_iff.mp ha)⟩
  unfold createSpecificOption
  simp only [lift_bind_ok, getStr_iff, getDbl_iff, hck]
  cases f <;>
    simp only [Factory.optionArgs, Spec.BarrierOf, List.mem_cons, List.not_mem_nil, or_false,
      forall_eq_or_imp, forall_eq, checkArg_ok_iff, getStr_iff, getDbl_iff, getDir_iff,
      lift_bind_ok, construct_ok_iff]
  case knockIn =>
    constructor
    · rintro ⟨-, -, t, h1, T, h2, B, h3, d, h4, h5, h6, rfl⟩
      exact ⟨rfl, h1, h2, h5, rfl, ⟨B, d, h3, h4, rfl⟩, h6⟩
    · rintro ⟨h0, h1, h2, h3, h4, ⟨B, d, h5, h6, h7⟩, h8⟩
      refine ⟨(), ⟨⟨_, h1⟩, ⟨_, h2⟩, ⟨_, h5⟩, ⟨_, h6⟩⟩, _, h1, _, h2, _, h5, _, h6, h3, h8, ?_⟩
      cases o; simp_all
  case knockOut =>
    constructor
    · rintro ⟨-, -, t, h1, T, h2, B, h3, d, h4, h5, h6, rfl⟩
      exact ⟨rfl, h1, h2, h5, rfl, ⟨B, d, h3, h4, rfl⟩, h6⟩
    · rintro ⟨h0, h1, h2, h3, h4, ⟨B, d, h5, h6, h7⟩, h8⟩
      refine ⟨(), ⟨⟨_, h1⟩, ⟨_, h2⟩, ⟨_, h5⟩, ⟨_, h6⟩⟩, _, h1, _, h2, _, h5, _, h6, h3, h8, ?_⟩
      cases o; simp_all
  all_goals
    constructor
    · rintro ⟨-, -, t, h1, T, h2, h5, h6, rfl⟩
      exact ⟨rfl, h1, h2, h5, rfl, rfl, h6⟩
    · rintro ⟨h0, h1, h2, h3, h4, h7, h8⟩
      refine ⟨(), ⟨⟨_, h1⟩, ⟨_, h2⟩⟩, _, h1, _, h2, h3, h8, ?_⟩
      cases o; simp_all

theorem createBody_ok_iff (f : Factory) {ordP ordO : List Arg} (hP : ordP.Perm f.payoffArgs)
    (hO : ordO.Perm f.optionArgs) (kvs : List (String × Param F)) {ty : PayoffType}
    (hty : ty = .call ∨ ty = .put) (m : Market F) (o : OptObj F) :
    createBody f ordP ordO (mkParams kvs) ty m = (.ok o, m) ↔
      Spec.Contract f kvs ty o ∧ Res.IsOk (outcome m (.getStockData o.ticker)) := by
  unfold createBody Spec.Contract
  rw [lift_bind_ok]
  simp only [createSpecificPayoff_ok_iff f hP kvs hty, createSpecificOption_ok_iff f hO kvs]
  constructor
  · rintro ⟨p, h1, h2, h3, h4, h5, rfl, h6, h7⟩; exact ⟨⟨h2, h3, h4, h5, h1, h6⟩, h7⟩
  · rintro ⟨⟨h2, h3, h4, h5, h1, h6⟩, h7⟩; exact ⟨o.payoff, h1, h2, h3, h4, h5, rfl, h6, h7⟩

/-! ### Reasons of failures -/

/-- Every exception of the outcome carries a message in `P`. -/
def Explained {α : Type} (P : String → Prop) (x : Res α) : Prop :=
  ∀ e, x = .throw e → P e.msg

theorem Explained.bind {α β : Type} {P : String → Prop} {x : Res α} {f : α → Res β}
    (hx : Explained P x) (hf : ∀ a, x = .ok a → Explained P (f a)) : Explained P (x >>= f) := by
  cases x with
  | ok a => exact hf a rfl
  | throw e => intro e' h; simp only [Res.bind_throw, Res.throw.injEq] at h; exact hx e' (by rw [h])
  | ub => intro e' h; cases h
theorem Explained.ok {α : Type} (P : String → Prop) (a : α) : Explained P (.ok a) := by
  intro e h; cases h
theorem Explained.invalidArg {α : Type} {P : String → Prop} {msg : String} (h : P msg) :
    Explained P (Verif.invalidArg msg : Res α) := by
  intro e he; simp only [Verif.invalidArg, Res.throw.injEq] at he; rw [← he]; exact h

theorem explained_getParameter {α : Type} (f : OptClass) (kvs : List (String × Param F))
    (m : Market F) (n : String) (proj : Param F → Option α) (hn : n ∈ Spec.needed f)
    (hp : ∀ v, proj v = none → ¬ Spec.HasType n v) :
    Explained (Spec.Reason f kvs m) (getParameter proj (mkParams kvs) n) := by
  unfold getParameter
  rw [find?_mkParams]
  cases h : Spec.lastSet kvs n with
  | none => exact .invalidArg (.missing n hn h)
  | some v =>
    cases hv : proj v with
    | some a => simp only [hv]; exact .ok _ _
    | none => simp only [hv]; exact .invalidArg (.wrongType n v hn h (hp v hv))

theorem hasType_dbl (n : String) (h1 : n ≠ "ticker") (h2 : n ≠ "direction") (v : Param F)
    (h : v.asDbl = none) : ¬ Spec.HasType n v := by
  unfold Spec.HasType; rw [if_neg h1, if_neg h2]
  rintro ⟨x, rfl⟩; cases h
theorem hasType_str (v : Param F) (h : v.asStr = none) : ¬ Spec.HasType "ticker" v := by
  unfold Spec.HasType; rw [if_pos rfl]; rintro ⟨x, rfl⟩; cases h
theorem hasType_dir (v : Param F) (h : v.asDir = none) : ¬ Spec.HasType "direction" v := by
  unfold Spec.HasType; rw [if_neg (by decide), if_pos rfl]; rintro ⟨x, rfl⟩; cases h

theorem explained_checkArg (f : OptClass) (kvs : List (String × Param F)) (m : Market F) (a : Arg)
    (ha : a ∈ Factory.payoffArgs f ∨ a ∈ Factory.optionArgs f) :
    Explained (Spec.Reason f kvs m) (checkArg (mkParams kvs) a) := by
  cases a
  case ticker =>
    exact (explained_getParameter f kvs m _ _ (by simp [Spec.needed]) hasType_str).bind
      (fun _ _ => .ok _ _)
  case T =>
    exact (explained_getParameter f kvs m _ _ (by simp [Spec.needed])
      (hasType_dbl _ (by decide) (by decide))).bind (fun _ _ => .ok _ _)
  case direction =>
    refine (explained_getParameter f kvs m _ _ ?_ hasType_dir).bind (fun _ _ => .ok _ _)
    revert ha; cases f <;> decide
  all_goals
    refine (explained_getParameter f kvs m _ _ ?_
      (hasType_dbl _ (by decide) (by decide))).bind (fun _ _ => .ok _ _)
    revert ha; cases f <;> decide

theorem explained_checkArgs (f : OptClass) (kvs : List (String × Param F)) (m : Market F)
    (l : List Arg) (ha : ∀ a ∈ l, a ∈ Factory.payoffArgs f ∨ a ∈ Factory.optionArgs f) :
    Explained (Spec.Reason f kvs m) (checkArgs (mkParams kvs) l) := by
  induction l with
  | nil => exact .ok _ _
  | cons a l ih =>
    exact (explained_checkArg f kvs m a (ha a (by simp))).bind
      (fun _ _ => ih (fun b hb => ha b (by simp [hb])))

theorem explained_mkVanilla (f : OptClass) (kvs : List (String × Param F)) (m : Market F)
    {ty : PayoffType} (hty : ty = .call ∨ ty = .put) (k : F)
    (h : Spec.lastSet kvs "K" = some (.dbl k)) (hn : "K" ∈ Spec.needed f) :
    Explained (Spec.Reason f kvs m) (Payoff.mkVanilla ty k) ∧
    Explained (Spec.Reason f kvs m) (Payoff.mkDigital ty k) := by
  have h1 : Explained (Spec.Reason f kvs m) (Payoff.checkStrike k) := by
    unfold Payoff.checkStrike
    cases hk : Fl.lt k (lit 0) with
    | true => simp only [if_true]; exact .invalidArg (.strike k h hk hn)
    | false => simp only [Bool.false_eq_true, if_false]; exact .ok _ _
  constructor
  · refine h1.bind (fun _ _ => ?_)
    rw [notCallPut_false hty]; exact .ok _ _
  · refine h1.bind (fun _ _ => ?_)
    rw [notCallPut_false hty]; exact .ok _ _

theorem explained_createSpecificPayoff (f : Factory) {ord : List Arg}
    (hord : ord.Perm f.payoffArgs) (kvs : List (String × Param F)) (m : Market F) {ty : PayoffType}
    (hty : ty = .call ∨ ty = .put) :
    Explained (Spec.Reason f kvs m) (createSpecificPayoff f ord (mkParams kvs) ty) := by
  have hck := explained_checkArgs f kvs m ord (fun a ha => .inl (hord.mem_iff.mp ha))
  have hK : "K" ∈ Spec.needed f → Explained (Spec.Reason f kvs m)
      (getParameter Param.asDbl (mkParams kvs) "K") := fun h =>
    explained_getParameter f kvs m _ _ h (hasType_dbl _ (by decide) (by decide))
  unfold createSpecificPayoff
  refine hck.bind (fun _ _ => ?_)
  cases f
  case doubleDigital =>
    refine (explained_getParameter _ kvs m _ _ (by decide)
      (hasType_dbl _ (by decide) (by decide))).bind (fun a ha => ?_)
    refine (explained_getParameter _ kvs m _ _ (by decide)
      (hasType_dbl _ (by decide) (by decide))).bind (fun b hb => ?_)
    rw [getDbl_iff] at ha hb
    unfold Payoff.mkDoubleDigital
    cases h1 : Fl.lt a (lit 0) with
    | true => simp only [if_true]; exact .invalidArg (.lowerStrike a ha h1 (by decide))
    | false =>
      cases h2 : Fl.lt b (lit 0) with
      | true =>
        simp only [Bool.false_eq_true, if_false, if_true]
        exact .invalidArg (.upperStrike b hb h2 (by decide))
      | false => simp only [Bool.false_eq_true, if_false]; exact .ok _ _
  case floatingLookback =>
    dsimp only
    unfold Payoff.mkFloatingLookback
    rw [notCallPut_false hty]; exact .ok _ _
  case digital =>
    exact (hK (by decide)).bind (fun k hk => by
      rw [getDbl_iff] at hk; exact (explained_mkVanilla _ kvs m hty k hk (by decide)).2)
  all_goals
    exact (hK (by decide)).bind (fun k hk => by
      rw [getDbl_iff] at hk; exact (explained_mkVanilla _ kvs m hty k hk (by decide)).1)

/-- `Explained` for effectful code started in state `s`. -/
def ExplainedEff {σ α : Type} (P : String → Prop) (s : σ) (x : Eff σ α) : Prop :=
  Explained P (x s).1

theorem ExplainedEff.lift_bind {σ α β : Type} {P : String → Prop} {s : σ} {r : Res α}
    {f : α → Eff σ β} (hr : Explained P r) (hf : ∀ a, r = .ok a → ExplainedEff P s (f a)) :
    ExplainedEff P s (Eff.lift r >>= f) := by
  unfold ExplainedEff
  cases r with
  | ok a => rw [Eff.bind_of_ok (by rfl)]; exact hf a rfl
  | throw e => intro e' h; rw [Eff.bind_of_throw (by rfl)] at h; cases h; exact hr _ rfl
  | ub => intro e' h; rw [Eff.bind_of_ub (by rfl)] at h; cases h

theorem explained_construct (f cls : OptClass) (kvs : List (String × Param F)) (m : Market F)
    (t : String) (p : Payoff F) (T : F) (b : Option (F × BarrierDirection))
    (ht : Spec.lastSet kvs "ticker" = some (.str t)) (hT : Spec.lastSet kvs "T" = some (.dbl T)) :
    ExplainedEff (Spec.Reason f kvs m) m (construct cls t p T b) := by
  unfold construct ExplainedEff
  cases h : Fl.lt T (lit 0) with
  | true => simp only [if_true]; exact .invalidArg (.maturity T hT h)
  | false =>
    simp only [Bool.false_eq_true, if_false]
    cases hp : mapFind t m.stockDataMap with
    | none =>
      have : Market.getStockData t m = (invalidArg (t ++ " Stock data not found."), m) := by
        simp [Market.getStockData, hp]
      rw [Eff.bind_of_throw this]
      intro e he
      cases he
      exact .ticker t ht (by rw [outcome_getStockData, hp]; simp)
    | some q =>
      have : Market.getStockData t m = (.ok q, m) := by simp [Market.getStockData, hp]
      rw [Eff.bind_of_ok this]; exact .ok _ _

theorem explained_createBody (f : Factory) {ordP ordO : List Arg} (hP : ordP.Perm f.payoffArgs)
    (hO : ordO.Perm f.optionArgs) (kvs : List (String × Param F)) {ty : PayoffType}
    (hty : ty = .call ∨ ty = .put) (m : Market F) :
    ExplainedEff (Spec.Reason f kvs m) m (createBody f ordP ordO (mkParams kvs) ty) := by
  unfold createBody
  refine .lift_bind (explained_createSpecificPayoff f hP kvs m hty) (fun p _ => ?_)
  unfold createSpecificOption
  refine .lift_bind (explained_checkArgs f kvs m ordO (fun a ha => .inr (hO.mem_iff.mp ha)))
    (fun _ _ => ?_)
  refine .lift_bind (explained_getParameter f kvs m _ _ (by simp [Spec.needed]) hasType_str)
    (fun t ht => ?_)
  refine .lift_bind (explained_getParameter f kvs m _ _ (by simp [Spec.needed])
    (hasType_dbl _ (by decide) (by decide))) (fun T hT => ?_)
  rw [getStr_iff] at ht
  rw [getDbl_iff] at hT
  cases f
  case knockIn =>
    refine .lift_bind (explained_getParameter _ kvs m _ _ (by decide)
      (hasType_dbl _ (by decide) (by decide))) (fun B _ => ?_)
    refine .lift_bind (explained_getParameter _ kvs m _ _ (by decide) hasType_dir) (fun d _ => ?_)
    exact explained_construct _ _ kvs m t p T _ ht hT
  case knockOut =>
    refine .lift_bind (explained_getParameter _ kvs m _ _ (by decide)
      (hasType_dbl _ (by decide) (by decide))) (fun B _ => ?_)
    refine .lift_bind (explained_getParameter _ kvs m _ _ (by decide) hasType_dir) (fun d _ => ?_)
    exact explained_construct _ _ kvs m t p T _ ht hT
  all_goals exact explained_construct _ _ kvs m t p T _ ht hT

end OptionModel
end Verif
