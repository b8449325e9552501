import Verif.Proofs.Derive

/-! Properties of derived code: C01, C02, C03, C05, C06 (one production; see also Props/Grammar), C07, C08, C09, C10, C58.
`P t` is the `Parse` implementation of field type `t`; `pr` is the `ToTokens` implementation of the fields. -/

namespace Parsel
open Spec

variable {τ ρ V X : Type} [DecidableEq τ]

theorem body_of_expandParse {order : List τ → List τ} {item : DeriveInput τ ρ} {impl : Impl (ParseCode τ) τ ρ}
    (h : expandParse order item = .ok impl) : expandParseBody item = .ok impl.body := by
  unfold expandParse at h
  split at h
  · cases h
  · rename_i body hb
    split at h
    · cases h
    · injection h with h; subst h; exact hb

theorem body_of_expandToTokens {order : List τ → List τ} {item : DeriveInput τ ρ} {impl : Impl PrintCode τ ρ}
    (h : expandToTokens order item = .ok impl) : expandPrintBody item = .ok impl.body := by
  unfold expandToTokens at h
  split at h
  · cases h
  · rename_i body hb
    split at h
    · cases h
    · injection h with h; subst h; exact hb

/-! #### Concrete material for the non-vacuity examples: words as field types, keyword parsers as their parsers -/

/-- An identifier token at column `c` of line 1. -/
def exIdent (x : String) (c : Nat) : TT := .ident x.toList ⟨⟨1, c⟩, ⟨1, c + x.length⟩⟩
/-- A stream of two identifiers. -/
def exState : PState := ⟨[exIdent "a" 0, exIdent "b" 2], .callSite, none⟩
/-- `struct S { x: a, y: b }` where `a` and `b` are keyword types. -/
def exStruct : DeriveInput Text Unit :=
  ⟨"S".toList, .struct (.named [("x".toList, ⟨"a".toList, .ok false⟩), ("y".toList, ⟨"b".toList, .ok true⟩)]), [()]⟩
/-- `enum E { V { x: b }, W(a, a), U(a, b) }`. -/
def exEnum : DeriveInput Text Unit :=
  ⟨"E".toList, .enum [⟨"V".toList, .named [("x".toList, ⟨"b".toList, .ok false⟩)]⟩,
    ⟨"W".toList, .unnamed [⟨"a".toList, .ok false⟩, ⟨"a".toList, .ok false⟩]⟩,
    ⟨"U".toList, .unnamed [⟨"a".toList, .ok false⟩, ⟨"b".toList, .ok false⟩]⟩], []⟩

/-! #### C01 -/

/-- **C01.** A derived struct parses exactly when its fields, in declaration order, each from where the previous one stopped,
all parse; the node holds those values in that order and the stream stands where the last field stopped. -/
theorem C01_struct_parse_ok (P : τ → Parser V) (order : List τ → List τ) (item : DeriveInput τ ρ) (fields : Fields τ)
    (hdata : item.data = .struct fields) (impl : Impl (ParseCode τ) τ ρ) (himpl : expandParse order item = .ok impl)
    (s s' : PState) (n : Node V) :
    evalParse P impl.body s = .ok n s' ↔ n.ctor = item.ident ∧ SeqOk P (fieldTypes fields) s n.fields s' := by
  have hb := body_of_expandParse himpl
  simp only [expandParseBody, hdata, Except.ok.injEq] at hb
  rw [← hb]
  exact evalCtor_ok P none item.ident fields s s' n

/-- **C01** (failure). A derived struct fails exactly when some field fails after all earlier ones have succeeded. The error is
that field's error with the struct and field named in front (C06). -/
theorem C01_struct_parse_err (P : τ → Parser V) (order : List τ → List τ) (item : DeriveInput τ ρ) (fields : Fields τ)
    (hdata : item.data = .struct fields) (impl : Impl (ParseCode τ) τ ρ) (himpl : expandParse order item = .ok impl)
    (s : PState) (e : Err) :
    evalParse P impl.body s = .err e ↔
      ∃ i l e0, SeqErr P (fieldTypes fields) s i e0 ∧ (fieldLabels fields)[i]? = some l ∧
        e = ⟨e0.span, errorLine [] item.ident l ++ e0.msg⟩ := by
  have hb := body_of_expandParse himpl
  simp only [expandParseBody, hdata, Except.ok.injEq] at hb
  rw [← hb, evalParse, evalCtor_err]
  simp only [chainError_eq, Option.getD_none]

omit [DecidableEq τ] in
/-- **C01** (no later field is attempted). Whatever follows the failing field - even a field whose parser panics or never
returns -, the failure is the same. -/
theorem C01_no_later_field (P : τ → Parser V) (ts post post' : List τ) (s : PState) (i : Nat) (e : Err)
    (hi : i < ts.length) : SeqErr P (ts ++ post) s i e → SeqErr P (ts ++ post') s i e := by
  induction ts generalizing s i with
  | nil => simp at hi
  | cons t ts ih =>
    intro h
    cases h with
    | here h => exact .here h
    | there h h' => exact .there h (ih _ _ (by simpa using hi) h')

/-- A concrete struct meets the hypotheses and both outcomes occur. -/
example : ∃ impl, expandParse id exStruct = .ok impl ∧
    (∃ n s', evalParse keywordParse impl.body exState = .ok n s' ∧ n.fields.length = 2 ∧ s'.cur = []) ∧
    (∃ e, evalParse keywordParse impl.body { exState with cur := [exIdent "a" 0, exIdent "c" 2] } = .err e ∧
      e.msg = "error parsing S::y, caused by:\nexpected keyword `b`".toList) :=
  ⟨_, rfl, ⟨_, _, rfl, rfl, rfl⟩, ⟨_, rfl, rfl⟩⟩

/-! #### C02 -/

/-- **C02.** A derived enum yields variant `v` exactly when `v` parses and every variant before it fails, all of them tried from
the same position; the stream then stands where `v` left it. (Every attempt starts with a clean record of unexpected tokens;
the record left by the winner is adopted, see C15.) Variants after `v` are irrelevant. -/
theorem C02_enum_parse_ok (P : τ → Parser V) (order : List τ → List τ) (item : DeriveInput τ ρ)
    (variants : List (VariantDef τ)) (hdata : item.data = .enum variants) (impl : Impl (ParseCode τ) τ ρ)
    (himpl : expandParse order item = .ok impl) (s s' : PState) (n : Node V) :
    evalParse P impl.body s = .ok n s' ↔
      ∃ before v after left, variants = before ++ v :: after ∧
        (∀ u ∈ before, ∃ i e, SeqErr P (fieldTypes u.fields) { s with unexp := none } i e) ∧
        SeqOk P (fieldTypes v.fields) { s with unexp := none } n.fields left ∧ n.ctor = v.ident ∧
        s'.cur = left.cur ∧ s'.scope = s.scope ∧
        s'.unexp = (if s.unexp.isSome then s.unexp else left.unexp) := by
  have hb := body_of_expandParse himpl
  simp only [expandParseBody, hdata, Except.ok.injEq] at hb
  rw [← hb, evalParse, evalVariants_ok]
  constructor
  · rintro ⟨pre, v, post, f, hvs, hpre, hn, hs, rfl⟩
    refine ⟨pre, v, post, f, hvs, hpre, hs, hn, rfl, rfl, ?_⟩
    cases h : s.unexp <;> simp [PState.advanceTo, h]
  · rintro ⟨pre, v, post, f, hvs, hpre, hs, hn, h1, h2, h3⟩
    refine ⟨pre, v, post, f, hvs, hpre, hn, hs, ?_⟩
    obtain ⟨c, sc, u⟩ := s'
    simp only at h1 h2 h3
    subst h1; subst h2; subst h3
    cases h : s.unexp <;> simp [PState.advanceTo, h]

/-- The third variant of `exEnum` wins after the first two failed, the second one after having read a token. -/
example : ∃ impl, expandParse id exEnum = .ok impl ∧
    (∃ n s', evalParse keywordParse impl.body exState = .ok n s' ∧ n.ctor = "U".toList ∧ s'.cur = []) :=
  ⟨_, rfl, ⟨_, _, rfl, rfl, rfl⟩⟩

/-! #### C03 -/

/-- **C03.** A derived enum with at least one variant fails exactly when every variant fails, and then the reported error is,
among the variants' own errors, the last one of those whose span ends furthest. -/
theorem C03_enum_error (P : τ → Parser V) (order : List τ → List τ) (item : DeriveInput τ ρ)
    (variants : List (VariantDef τ)) (hdata : item.data = .enum variants) (hne : variants ≠ [])
    (impl : Impl (ParseCode τ) τ ρ) (himpl : expandParse order item = .ok impl) (s : PState) (e : Err) :
    evalParse P impl.body s = .err e ↔
      ∃ errs, Each (VariantErr P item.ident s) variants errs ∧ IsLastFurthest errs e := by
  have hb := body_of_expandParse himpl
  simp only [expandParseBody, hdata, Except.ok.injEq] at hb
  rw [← hb, evalParse, evalVariants_err]
  constructor
  · rintro ⟨errs, h, he⟩
    refine ⟨errs, h, ?_⟩
    have hne' : errs ≠ [] := by
      rintro rfl; cases h; exact hne rfl
    obtain ⟨e', h1, h2⟩ := isLastFurthest_foldl_none errs hne'
    rw [h1] at he
    simp only [Option.getD_some] at he
    exact he ▸ h2
  · rintro ⟨errs, h, he⟩
    refine ⟨errs, h, ?_⟩
    have hne' : errs ≠ [] := by
      rintro rfl; cases h; exact hne rfl
    obtain ⟨e', h1, h2⟩ := isLastFurthest_foldl_none errs hne'
    rw [h1]
    exact he.unique h2

/-- **C03** for `Either`. -/
theorem C03_either_error {L R : Type} (l : Parser L) (r : Parser R) (s : PState) (e : Err) :
    eitherParse l r s = .err e ↔
      ∃ el er, l { s with unexp := none } = .err el ∧ r { s with unexp := none } = .err er ∧ IsLastFurthest [el, er] e := by
  have hfork : s.fork = { s with unexp := none } := rfl
  have hmax : ∀ el er, IsLastFurthest [el, er] (maxByEnd el er) := by
    intro el er
    obtain ⟨e', h1, h2⟩ := isLastFurthest_foldl_none [el, er] (by simp)
    simp only [List.foldl_cons, List.foldl_nil, accErr, Option.some.injEq] at h1
    exact h1 ▸ h2
  unfold eitherParse
  rw [hfork]
  cases hl : l { s with unexp := none } with
  | err el =>
    cases hr : r { s with unexp := none } with
    | err er =>
      constructor
      · intro h; injection h with h; exact ⟨el, er, rfl, rfl, h ▸ hmax el er⟩
      · rintro ⟨el', er', h1, h2, h3⟩
        injection h1 with h1; injection h2 with h2; subst h1; subst h2
        exact congrArg Res.err ((hmax el er).unique h3)
    | ok b f => simp
    | panic => simp
    | oof => simp
  | ok a f => simp
  | panic => simp
  | oof => simp

/-- All three variants of `exEnum` fail on `a c`; the last two fail equally far, the last one is reported. -/
example : ∃ impl, expandParse id exEnum = .ok impl ∧
    ∃ e, evalParse keywordParse impl.body { exState with cur := [exIdent "a" 0, exIdent "c" 2] } = .err e ∧
      e.msg = "error parsing E::U::1, caused by:\nexpected keyword `b`".toList :=
  ⟨_, rfl, _, rfl, rfl⟩

/-! #### C05 -/

/-- **C05.** An enum without variants fails on every input, with its own message at the current position. -/
theorem C05_empty_enum (P : τ → Parser V) (order : List τ → List τ) (item : DeriveInput τ ρ)
    (hdata : item.data = .enum []) (impl : Impl (ParseCode τ) τ ρ) (himpl : expandParse order item = .ok impl)
    (s : PState) :
    evalParse P impl.body s = .err (s.error "parsing an empty choice (enum) always fails".toList) := by
  have hb := body_of_expandParse himpl
  simp only [expandParseBody, hdata, Except.ok.injEq] at hb
  rw [← hb]; rfl

/-- **C05.** A unit struct parses on every input without consuming anything. -/
theorem C05_unit_struct (P : τ → Parser V) (order : List τ → List τ) (item : DeriveInput τ ρ)
    (hdata : item.data = .struct .unit) (impl : Impl (ParseCode τ) τ ρ) (himpl : expandParse order item = .ok impl)
    (s : PState) : evalParse P impl.body s = .ok ⟨item.ident, []⟩ s :=
  (C01_struct_parse_ok P order item .unit hdata impl himpl s s _).2 ⟨rfl, .nil s⟩

/-- **C05.** A unit variant always parses where it is tried: an enum containing one parses wherever all variants before it
fail, and it consumes nothing then. -/
theorem C05_unit_variant (P : τ → Parser V) (order : List τ → List τ) (item : DeriveInput τ ρ)
    (before after : List (VariantDef τ)) (v : Text)
    (hdata : item.data = .enum (before ++ ⟨v, .unit⟩ :: after)) (impl : Impl (ParseCode τ) τ ρ)
    (himpl : expandParse order item = .ok impl) (s : PState)
    (hb : ∀ u ∈ before, ∃ i e, SeqErr P (fieldTypes u.fields) { s with unexp := none } i e) :
    evalParse P impl.body s = .ok ⟨v, []⟩ s := by
  rw [C02_enum_parse_ok P order item _ hdata impl himpl]
  refine ⟨before, ⟨v, .unit⟩, after, _, rfl, hb, .nil _, rfl, rfl, rfl, ?_⟩
  cases h : s.unexp <;> simp

example : ∃ impl, expandParse id (⟨"E".toList, .enum [], []⟩ : DeriveInput Text Unit) = .ok impl := ⟨_, rfl⟩
example : ∃ impl, expandParse id (⟨"E".toList, .enum [⟨"V".toList, .unit⟩], []⟩ : DeriveInput Text Unit) = .ok impl ∧
    ∃ s', evalParse keywordParse impl.body exState = .ok ⟨"V".toList, []⟩ s' ∧ s'.cur.length = 2 := ⟨_, rfl, _, rfl, rfl⟩

/-! #### C06 (one level; nesting in Props/Grammar) -/

/-- **C06.** Putting any number of enclosing productions (outermost first) around an error keeps its location and puts one line
per production, outermost first, in front of its message. -/
theorem C06_chain_path (path : List Frame) (cause : Err) :
    path.foldr (fun f e => chainError e f.enum_ f.ctor f.field) cause = ⟨cause.span, renderPath path cause.msg⟩ := by
  induction path with
  | nil => rfl
  | cons f path ih => rw [List.foldr_cons, ih, chainError_eq]; simp [renderPath]

example : renderPath [⟨[], "S".toList, "x".toList⟩, ⟨"E".toList, "V".toList, "0".toList⟩] "boom".toList
    = "error parsing S::x, caused by:\nerror parsing E::V::0, caused by:\nboom".toList := by decide

/-! #### C07, C08, C58 -/

/-- **C07** (structs). Derived printing of a struct always compiles and emits the tokens of the fields in declaration order. -/
theorem C07_struct_print (order : List τ → List τ) (item : DeriveInput τ ρ) (fields : Fields τ)
    (hdata : item.data = .struct fields) (hnames : (fieldNames fields).Nodup) (impl : Impl PrintCode τ ρ)
    (himpl : expandToTokens order item = .ok impl) :
    ∃ exe, compilePrint item.data impl.body = some exe ∧
      ∀ (pr : V → List X) (n : Node V), n.fields.length = fields.defs.length →
        runPrint pr true exe n = n.fields.flatMap pr := by
  have hb := body_of_expandToTokens himpl
  simp only [expandPrintBody, hdata, Except.ok.injEq] at hb
  rw [← hb, hdata]
  refine ⟨[([], List.range fields.defs.length)], ?_, ?_⟩
  · simp [compilePrint, struct_resolve fields hnames]
  · intro pr n hn
    simp [runPrint, ← hn, flatMap_range_getElem]

/-- **C07** (enums). When derived printing of an enum compiles (see C08), printing a value of variant `v` emits exactly the
tokens of the fields of `v`, in declaration order. -/
theorem C07_enum_print (order : List τ → List τ) (item : DeriveInput τ ρ) (variants : List (VariantDef τ))
    (hdata : item.data = .enum variants) (hfields : ∀ v ∈ variants, (fieldNames v.fields).Nodup)
    (hvariants : (variants.map (·.ident)).Nodup) (impl : Impl PrintCode τ ρ)
    (himpl : expandToTokens order item = .ok impl) (exe : List (Text × List Nat))
    (hexe : compilePrint item.data impl.body = some exe) (v : VariantDef τ) (hv : v ∈ variants)
    (pr : V → List X) (n : Node V) (hn : n.ctor = v.ident) (hlen : n.fields.length = v.fields.defs.length) :
    runPrint pr false exe n = n.fields.flatMap pr := by
  have hb := body_of_expandToTokens himpl
  simp only [expandPrintBody, hdata, Except.ok.injEq] at hb
  rw [← hb] at hexe
  have key : ∀ (vs : List (VariantDef τ)) (exe : List (Text × List Nat)), (∀ v ∈ vs, (fieldNames v.fields).Nodup) →
      (vs.map (·.ident)).Nodup → v ∈ vs →
      ((vs.map expandArm).mapM fun a => (resolveArm a).map fun is => (a.variant, is)) = some exe →
      lookupArm v.ident exe = some (List.range v.fields.defs.length) := by
    intro vs
    induction vs with
    | nil => intro exe _ _ h; simp at h
    | cons w vs ih =>
      intro exe hf hnd hmem h
      simp only [List.map_cons, List.mapM_cons] at h
      rw [expandArm_resolve w (hf w (by simp))] at h
      split at h
      · simp at h
      · cases hm : ((vs.map expandArm).mapM fun a => (resolveArm a).map fun is => (a.variant, is)) with
        | none => simp [hm] at h
        | some rest =>
          simp [hm] at h
          subst h
          simp only [lookupArm]
          by_cases hvw : v.ident = w.ident
          · have : v = w := by
              rcases List.mem_cons.1 hmem with h | h
              · exact h
              · simp only [List.map_cons, List.nodup_cons] at hnd
                exact absurd (List.mem_map.2 ⟨v, h, hvw⟩) hnd.1
            subst this
            simp [expandArm]
          · rcases List.mem_cons.1 hmem with h | h
            · exact absurd (congrArg _ h) hvw
            · simp only [expandArm, hvw, if_false]
              simp only [List.map_cons, List.nodup_cons] at hnd
              exact ih rest (fun u hu => hf u (by simp [hu])) hnd.2 h hm
  simp only [compilePrint] at hexe
  split at hexe
  · cases hexe
  · have := key variants exe hfields hvariants hv hexe
    rw [← hn] at this
    simp [runPrint, this, ← hlen, flatMap_range_getElem]

/-- **C08 / C58.** The printing code generated for an enum compiles exactly when the enum has at least one variant and no
struct-like variant has a field called `tokens`. -/
theorem C08_enum_compiles_iff (order : List τ → List τ) (item : DeriveInput τ ρ) (variants : List (VariantDef τ))
    (hdata : item.data = .enum variants) (hfields : ∀ v ∈ variants, (fieldNames v.fields).Nodup)
    (impl : Impl PrintCode τ ρ) (himpl : expandToTokens order item = .ok impl) :
    (compilePrint item.data impl.body).isSome ↔
      variants ≠ [] ∧ ∀ v ∈ variants, "tokens".toList ∉ fieldNames v.fields := by
  have hb := body_of_expandToTokens himpl
  simp only [expandPrintBody, hdata, Except.ok.injEq] at hb
  rw [← hb]
  simp only [compilePrint]
  split
  · rename_i h
    have : variants = [] := by
      cases variants with
      | nil => rfl
      | cons v vs => exact absurd h Bool.false_ne_true
    constructor
    · intro h; cases h
    · rintro ⟨h, _⟩; exact absurd this h
  · rename_i h
    have hne : variants ≠ [] := by rintro rfl; exact h rfl
    constructor
    · intro hs
      refine ⟨hne, ?_⟩
      intro v hv htok
      have : ((variants.map expandArm).mapM fun a => (resolveArm a).map fun is => (a.variant, is)) = none := by
        apply mapM_option_none _ _ (expandArm v) (List.mem_map.2 ⟨v, hv, rfl⟩)
        rw [expandArm_resolve v (hfields v hv), if_pos htok]; rfl
      rw [this] at hs; cases hs
    · rintro ⟨_, hv⟩
      rw [mapM_option_map _ (fun a => (a.variant, (resolveArm a).getD []))]
      · rfl
      · intro a ha
        obtain ⟨v, hv', rfl⟩ := List.mem_map.1 ha
        rw [expandArm_resolve v (hfields v hv'), if_neg (hv v hv')]; rfl

/-- **C08** is false in general: a legal enum with a struct-like variant whose field is called `tokens`; deriving `Parse` for
it works, the code generated for `ToTokens` does not compile. -/
theorem C08_refuted : ∃ item : DeriveInput Text Unit, (∃ i, expandParse id item = .ok i) ∧
    ∃ impl, expandToTokens id item = .ok impl ∧ compilePrint item.data impl.body = none :=
  ⟨⟨"E".toList, .enum [⟨"V".toList, .named [("tokens".toList, ⟨"a".toList, .ok false⟩)]⟩], []⟩,
    ⟨_, rfl⟩, _, rfl, by decide⟩

/-- **C58** is false in general: `#[derive(ToTokens)]` for an enum without variants is accepted by the macro but the generated
code never compiles, although `#[derive(Parse)]` works for it (C05). -/
theorem C58_refuted (order : List τ → List τ) (name : Text) (preds : List ρ) (impl : Impl PrintCode τ ρ)
    (himpl : expandToTokens order ⟨name, .enum [], preds⟩ = .ok impl) :
    compilePrint (Data.enum ([] : List (VariantDef τ))) impl.body = none := by
  have hb := body_of_expandToTokens himpl
  simp only [expandPrintBody, Except.ok.injEq] at hb
  rw [← hb]; rfl

/-- **C58** (the rest of the claim). If no field is called `tokens` (C08), the printing code of an enum compiles exactly if there is a variant; it then has one
arm per variant, in order of declaration. -/
theorem C58_arms (order : List τ → List τ) (item : DeriveInput τ ρ) (variants : List (VariantDef τ)) (hdata : item.data = .enum variants)
    (hfields : ∀ v ∈ variants, (fieldNames v.fields).Nodup) (htokens : ∀ v ∈ variants, "tokens".toList ∉ fieldNames v.fields)
    (impl : Impl PrintCode τ ρ) (himpl : expandToTokens order item = .ok impl) :
    ((∃ exe, compilePrint item.data impl.body = some exe) ↔ variants ≠ []) ∧
    ∀ exe, compilePrint item.data impl.body = some exe → exe.map Prod.fst = variants.map (·.ident) := by
  have hb := body_of_expandToTokens himpl
  simp only [expandPrintBody, hdata, Except.ok.injEq] at hb
  have he : (variants.map expandArm).mapM (fun a => (resolveArm a).map fun is => (a.variant, is))
      = some ((variants.map expandArm).map fun a => (a.variant, (resolveArm a).getD [])) := by
    rw [mapM_option_map _ (fun a => (a.variant, (resolveArm a).getD []))]
    intro a ha
    obtain ⟨v, hv, rfl⟩ := List.mem_map.1 ha
    rw [expandArm_resolve v (hfields v hv), if_neg (htokens v hv)]; rfl
  rw [← hb]
  simp only [compilePrint, he]
  cases variants with
  | nil => exact ⟨⟨(fun ⟨_, h⟩ => by cases h), (fun h => absurd rfl h)⟩, (fun _ h => by cases h)⟩
  | cons v vs =>
    refine ⟨⟨(fun _ h => by cases h), (fun _ => ⟨_, rfl⟩)⟩, fun exe h => ?_⟩
    cases h
    simp [expandArm, Function.comp_def]

/-- Spelling the field `r#tokens` does not help; in a struct, or next to a raw variant name, such names do no harm. -/
example : ∃ impl, expandToTokens id (⟨"E".toList, .enum [⟨"V".toList, .named [("r#tokens".toList, ⟨"a".toList, .ok false⟩)]⟩], []⟩
    : DeriveInput Text Unit) = .ok impl ∧ compilePrint (Data.enum [⟨"V".toList, .named [("r#tokens".toList, (⟨"a".toList, .ok false⟩ : FieldDef Text))]⟩])
      impl.body = none := ⟨_, rfl, by decide⟩
example : ∃ impl, expandToTokens id (⟨"S".toList, .struct (.named [("r#type".toList, ⟨"a".toList, .ok false⟩), ("r#tokens".toList, ⟨"a".toList, .ok false⟩)]), []⟩
    : DeriveInput Text Unit) = .ok impl ∧ compilePrint (Data.struct (.named [("r#type".toList, (⟨"a".toList, .ok false⟩ : FieldDef Text)),
      ("r#tokens".toList, ⟨"a".toList, .ok false⟩)])) impl.body = some [([], [0, 1])] := ⟨_, rfl, by decide⟩

example : ∃ impl, expandToTokens id (⟨"E".toList, .enum [], []⟩ : DeriveInput Text Unit) = .ok impl := ⟨_, rfl⟩
example : ∃ impl exe, expandToTokens id exEnum = .ok impl ∧ compilePrint exEnum.data impl.body = some exe ∧
    runPrint (fun x => x) false exe ⟨"U".toList, [[1], [2, 3]]⟩ = [1, 2, 3] := ⟨_, _, rfl, rfl, rfl⟩
example : ∃ impl exe, expandToTokens id exStruct = .ok impl ∧ compilePrint exStruct.data impl.body = some exe ∧
    runPrint (fun x => x) true exe ⟨"S".toList, [[1], [2, 3]]⟩ = [1, 2, 3] := ⟨_, _, rfl, rfl, rfl⟩

/-! #### C09 -/

/-- **C09.** Both derives reject unions, whatever else is in the item. -/
theorem C09_union_rejected (order : List τ → List τ) (item : DeriveInput τ ρ) (h : item.data = .union) :
    (∀ impl, expandParse order item ≠ .ok impl) ∧ (∀ impl, expandToTokens order item ≠ .ok impl) := by
  constructor <;> intro impl <;> simp [expandParse, expandToTokens, expandParseBody, expandPrintBody, h]

/-- **C09.** Both derives produce an impl for every struct and enum exactly if all field attributes are well-formed. -/
theorem C09_accepted_iff (order : List τ → List τ) (item : DeriveInput τ ρ) (h : item.data ≠ .union) :
    ((∃ impl, expandParse order item = .ok impl) ↔ ∀ f ∈ allFields item, ∃ b, f.attr = .ok b) ∧
    ((∃ impl, expandToTokens order item = .ok impl) ↔ ∀ f ∈ allFields item, ∃ b, f.attr = .ok b) := by
  have hb1 : ∃ b, expandParseBody item = .ok b := by
    obtain ⟨_, data, _⟩ := item
    cases data with
    | union => exact absurd rfl h
    | struct _ => exact ⟨_, rfl⟩
    | enum _ => exact ⟨_, rfl⟩
  have hb2 : ∃ b, expandPrintBody item = .ok b := by
    obtain ⟨_, data, _⟩ := item
    cases data with
    | union => exact absurd rfl h
    | struct _ => exact ⟨_, rfl⟩
    | enum _ => exact ⟨_, rfl⟩
  obtain ⟨b1, hb1⟩ := hb1
  obtain ⟨b2, hb2⟩ := hb2
  have key : (∃ ps, addBounds order item = .ok ps) ↔ ∀ f ∈ allFields item, ∃ b, f.attr = .ok b := by
    rw [addBounds_eq order item h]
    cases hc : collectTypes (allFields item) with
    | ok ts => simpa using (collectTypes_ok hc).2
    | error e =>
      obtain ⟨f, hf, he⟩ := collectTypes_err hc
      constructor
      · rintro ⟨ps, hps⟩; cases hps
      · intro hall; obtain ⟨b, hb⟩ := hall f hf; rw [he] at hb; cases hb
  constructor
  · rw [← key]
    simp only [expandParse, hb1]
    constructor
    · rintro ⟨impl, hi⟩; split at hi
      · cases hi
      · exact ⟨_, by assumption⟩
    · rintro ⟨ps, hps⟩; rw [hps]; exact ⟨_, rfl⟩
  · rw [← key]
    simp only [expandToTokens, hb2]
    constructor
    · rintro ⟨impl, hi⟩; split at hi
      · cases hi
      · exact ⟨_, by assumption⟩
    · rintro ⟨ps, hps⟩; rw [hps]; exact ⟨_, rfl⟩

example : exStruct.data ≠ .union := by simp [exStruct]

/-! #### C10 -/

theorem preds_of_addBounds {order : List τ → List τ} (horder : ∀ l, (order l).Perm l) {item : DeriveInput τ ρ}
    {ps : List (Pred τ ρ)} (hps : addBounds order item = .ok ps) :
    ∃ bounds : List τ, ps = item.preds.map Pred.user ++ bounds.map Pred.bound ∧ bounds.Nodup ∧
      ∀ t, t ∈ bounds ↔ ∃ f ∈ allFields item, f.ty = t ∧ f.attr = .ok false := by
  have hu : item.data ≠ .union := by
    intro h; simp [addBounds, h] at hps
  rw [addBounds_eq order item hu] at hps
  cases hc : collectTypes (allFields item) with
  | error e => simp [hc] at hps
  | ok ts =>
    simp only [hc, Except.ok.injEq] at hps
    refine ⟨order (dedup ts), hps.symm, (horder _).nodup_iff.2 (nodup_dedup ts), ?_⟩
    intro t
    rw [(horder _).mem_iff, mem_dedup, (collectTypes_ok hc).1]

/-- **C10.** The generated `where` clause consists of the user's predicates, unchanged and in order, followed by exactly one
bound per distinct type of a field not marked recursive (and no other bound), whatever the iteration order of the hash set. -/
theorem C10_where_clause (order : List τ → List τ) (horder : ∀ l, (order l).Perm l) (item : DeriveInput τ ρ)
    (preds : List (Pred τ ρ))
    (h : (∃ impl, expandParse order item = .ok impl ∧ impl.preds = preds) ∨
         (∃ impl, expandToTokens order item = .ok impl ∧ impl.preds = preds)) :
    ∃ bounds : List τ, preds = item.preds.map Pred.user ++ bounds.map Pred.bound ∧ bounds.Nodup ∧
      ∀ t, t ∈ bounds ↔ ∃ f ∈ allFields item, f.ty = t ∧ f.attr = .ok false := by
  apply preds_of_addBounds horder
  rcases h with ⟨impl, h, rfl⟩ | ⟨impl, h, rfl⟩
  · unfold expandParse at h
    split at h
    · cases h
    · split at h
      · cases h
      · injection h with h; subst h; assumption
  · unfold expandToTokens at h
    split at h
    · cases h
    · split at h
      · cases h
      · injection h with h; subst h; assumption

/-- **C10** (malformed attribute). If some field has a malformed attribute, both derives fail. -/
theorem C10_malformed_attribute (order : List τ → List τ) (item : DeriveInput τ ρ) (f : FieldDef τ)
    (hf : f ∈ allFields item) (e : Text) (he : f.attr = .error e) :
    (∀ impl, expandParse order item ≠ .ok impl) ∧ (∀ impl, expandToTokens order item ≠ .ok impl) := by
  have hu : item.data ≠ .union := by
    intro h; simp [allFields, h] at hf
  obtain ⟨h1, h2⟩ := C09_accepted_iff order item hu
  constructor
  · intro impl hi
    obtain ⟨b, hb⟩ := h1.1 ⟨impl, hi⟩ f hf
    rw [he] at hb; cases hb
  · intro impl hi
    obtain ⟨b, hb⟩ := h2.1 ⟨impl, hi⟩ f hf
    rw [he] at hb; cases hb

/-- In `exStruct` the field of type `b` is marked recursive, the one of type `a` is not. -/
example : ∃ impl, expandParse List.reverse exStruct = .ok impl ∧
    impl.preds = [Pred.user (), Pred.bound "a".toList] ∧ ∀ l : List Text, (List.reverse l).Perm l :=
  ⟨_, rfl, rfl, fun l => List.reverse_perm l⟩

end Parsel
