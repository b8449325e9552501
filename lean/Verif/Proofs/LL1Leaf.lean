import Verif.Spec.LL1
import Verif.Proofs.RoundTrip

/-! Leaves and groups that the checker takes to be apart, are. -/

namespace Parsel
open Spec
variable [Ext]

theorem refuses_leaf {env : Env} {l : Leaf} {ts : List TT} (h : ∀ sc ux, ∃ e, leafParse l ⟨ts, sc, ux⟩ = .err e) : Refuses env (.leaf l) ts := by
  intro sc ux
  obtain ⟨e, he⟩ := h sc ux
  exact ⟨e, 1, by simp only [parse, he, Res.map_errc]⟩

/-- The delimiter of a group type. -/
def groupDelim : Ty → Option Delim
  | .paren _ => some .paren
  | .bracket _ => some .bracket
  | .brace _ => some .brace
  | _ => none

theorem delimited_refuses {α : Type} {d : Delim} {p : Parser α} {s : PState} (h : ∀ inner sp rest, uncons s.cur ≠ some (.group d inner sp, rest)) :
    ∃ e, delimited d p s = .err e := by
  unfold delimited
  split
  · rename_i d' inner sp rest hu
    split
    · rename_i hd; subst hd; exact absurd hu (h inner sp rest)
    · exact ⟨_, rfl⟩
  · exact ⟨_, rfl⟩

theorem refuses_group {env : Env} {u : Ty} {d : Delim} {ts : List TT} (hu : groupDelim u = some d)
    (h : ∀ inner sp rest, uncons ts ≠ some (.group d inner sp, rest)) : Refuses env u ts := by
  intro sc ux
  cases u <;> simp only [groupDelim, Option.some.injEq, reduceCtorEq] at hu <;> subst hu
  case paren t =>
    obtain ⟨e, he⟩ := delimited_refuses (p := parse env 0 t) (s := ⟨ts, sc, ux⟩) h
    exact ⟨e, 1, by show (delimited _ (parse env 0 t) _).map _ = _; rw [he]; rfl⟩
  case bracket t =>
    obtain ⟨e, he⟩ := delimited_refuses (p := parse env 0 t) (s := ⟨ts, sc, ux⟩) h
    exact ⟨e, 1, by show (delimited _ (parse env 0 t) _).map _ = _; rw [he]; rfl⟩
  case brace t =>
    obtain ⟨e, he⟩ := delimited_refuses (p := parse env 0 t) (s := ⟨ts, sc, ux⟩) h
    exact ⟨e, 1, by show (delimited _ (parse env 0 t) _).map _ = _; rw [he]; rfl⟩

/-! ### literals -/

/-- Kind of a literal token of syn. -/
def tokClass : SynTok → Nat
  | .bool _ => 0
  | .lit (.byte _) => 1
  | .lit (.int _) => 2
  | .lit (.float _) => 3
  | .lit (.char _) => 4
  | .lit (.str _) => 5
  | .lit (.byteStr _) => 6
  | .lit .cstr => 7
  | .lit .verbatim => 8

theorem synKind_err {α : Type} {msg : Text} {pick : SynTok → Option α} {s : PState} {e : Err} (h : synLitParse s = .err e) :
    ∃ e, synKindParse msg pick s = .err e := by
  unfold synKindParse
  rw [h]
  exact ⟨_, rfl⟩

theorem synKind_other {α : Type} {msg : Text} {pick : SynTok → Option α} {s s' : PState} {t : SynTok} {sp : Span} (h : synLitParse s = .ok (t, sp) s')
    (hp : pick t = none) : ∃ e, synKindParse msg pick s = .err e := by
  unfold synKindParse
  rw [h]
  simp only [hp]
  exact ⟨_, rfl⟩

theorem andThen_errc {α β : Type} {r : Res (α × Span)} {f : α → Span → Except Err β} {e : Err} (h : r = .err e) : r.andThen f = .err e := by
  subst h; rfl

theorem litKind_err {k : LitKind} {s : PState} {e : Err} (h : synLitParse s = .err e) : ∃ e, litKindParse k s = .err e := by
  cases k with
  | any => exact ⟨e, andThen_errc h⟩
  | int =>
    obtain ⟨e, he⟩ := synKind_err (msg := "expected integer literal".toList) (pick := fun | .lit (.int d) => some d | _ => none) h
    exact ⟨e, by show (litIntParse s).map _ = _; rw [show litIntParse s = .err e from andThen_errc he]; rfl⟩
  | uint =>
    obtain ⟨e, he⟩ := synKind_err (msg := "expected integer literal".toList) (pick := fun | .lit (.int d) => some d | _ => none) h
    exact ⟨e, by show (litUintParse s).map _ = _; rw [show litUintParse s = .err e from andThen_errc he]; rfl⟩
  | float =>
    obtain ⟨e, he⟩ := synKind_err (msg := "expected floating point literal".toList) (pick := fun | .lit (.float d) => some d | _ => none) h
    exact ⟨e, by show (litFloatParse s).map _ = _; rw [show litFloatParse s = .err e from andThen_errc he]; rfl⟩
  | bool => obtain ⟨e, he⟩ := synKind_err h; exact ⟨e, by show (litBoolParse s).map _ = _; rw [show litBoolParse s = .err e from he]; rfl⟩
  | byte => obtain ⟨e, he⟩ := synKind_err h; exact ⟨e, by show (litByteParse s).map _ = _; rw [show litByteParse s = .err e from he]; rfl⟩
  | char => obtain ⟨e, he⟩ := synKind_err h; exact ⟨e, by show (litCharParse s).map _ = _; rw [show litCharParse s = .err e from he]; rfl⟩
  | str => obtain ⟨e, he⟩ := synKind_err h; exact ⟨e, by show (litStrParse s).map _ = _; rw [show litStrParse s = .err e from he]; rfl⟩
  | byteStr => obtain ⟨e, he⟩ := synKind_err h; exact ⟨e, by show (litByteStrParse s).map _ = _; rw [show litByteStrParse s = .err e from he]; rfl⟩

theorem litKind_other {k : LitKind} {c : Nat} {s s' : PState} {t : SynTok} {sp : Span} (h : synLitParse s = .ok (t, sp) s') (hk : litClass k = some c)
    (hc : tokClass t ≠ c) : ∃ e, litKindParse k s = .err e := by
  have np : ∀ {α : Type} {msg : Text} {pick : SynTok → Option α}, (∀ t, tokClass t ≠ c → pick t = none) → ∃ e, synKindParse msg pick s = .err e :=
    fun hp => synKind_other h (hp t hc)
  cases k with
  | any => cases hk
  | int =>
    injection hk with hk
    obtain ⟨e, he⟩ := np (msg := "expected integer literal".toList) (pick := fun | .lit (.int d) => some d | _ => none)
      (by subst hk; intro t h; split; exact absurd rfl h; rfl)
    exact ⟨e, by show (litIntParse s).map _ = _; rw [show litIntParse s = .err e from andThen_errc he]; rfl⟩
  | uint =>
    injection hk with hk
    obtain ⟨e, he⟩ := np (msg := "expected integer literal".toList) (pick := fun | .lit (.int d) => some d | _ => none)
      (by subst hk; intro t h; split; exact absurd rfl h; rfl)
    exact ⟨e, by show (litUintParse s).map _ = _; rw [show litUintParse s = .err e from andThen_errc he]; rfl⟩
  | float =>
    injection hk with hk
    obtain ⟨e, he⟩ := np (msg := "expected floating point literal".toList) (pick := fun | .lit (.float d) => some d | _ => none)
      (by subst hk; intro t h; split; exact absurd rfl h; rfl)
    exact ⟨e, by show (litFloatParse s).map _ = _; rw [show litFloatParse s = .err e from andThen_errc he]; rfl⟩
  | bool =>
    injection hk with hk
    obtain ⟨e, he⟩ : ∃ e, litBoolParse s = .err e := np (by subst hk; intro t h; split; exact absurd rfl h; rfl)
    exact ⟨e, by show (litBoolParse s).map _ = _; rw [he]; rfl⟩
  | byte =>
    injection hk with hk
    obtain ⟨e, he⟩ : ∃ e, litByteParse s = .err e := np (by subst hk; intro t h; split; exact absurd rfl h; rfl)
    exact ⟨e, by show (litByteParse s).map _ = _; rw [he]; rfl⟩
  | char =>
    injection hk with hk
    obtain ⟨e, he⟩ : ∃ e, litCharParse s = .err e := np (by subst hk; intro t h; split; exact absurd rfl h; rfl)
    exact ⟨e, by show (litCharParse s).map _ = _; rw [he]; rfl⟩
  | str =>
    injection hk with hk
    obtain ⟨e, he⟩ : ∃ e, litStrParse s = .err e := np (by subst hk; intro t h; split; exact absurd rfl h; rfl)
    exact ⟨e, by show (litStrParse s).map _ = _; rw [he]; rfl⟩
  | byteStr =>
    injection hk with hk
    obtain ⟨e, he⟩ : ∃ e, litByteStrParse s = .err e := np (by subst hk; intro t h; split; exact absurd rfl h; rfl)
    exact ⟨e, by show (litByteStrParse s).map _ = _; rw [he]; rfl⟩

theorem litKind_tok {k : LitKind} {s s' : PState} {v : LitVal} {sp : Span} (h : litKindParse k s = .ok (v, sp) s') :
    ∃ t, synLitParse s = .ok (t, sp) s' ∧ ∀ c, litClass k = some c → tokClass t = c := by
  have cls : ∀ {α : Type} {msg : Text} {pick : SynTok → Option α} {a : α} {c : Nat}, (∀ t a, pick t = some a → tokClass t = c) →
      synKindParse msg pick s = .ok (a, sp) s' → ∃ t, synLitParse s = .ok (t, sp) s' ∧ tokClass t = c := by
    intro α msg pick a c hp hs
    obtain ⟨t, h1, h2⟩ := synKind_ok.mp hs
    exact ⟨t, h1, hp t a h2⟩
  cases k with
  | any => obtain ⟨t, h1, _⟩ := litParse_ok.mp h; exact ⟨t, h1, fun c hc => by cases hc⟩
  | int =>
    obtain ⟨r, h1, h2⟩ := Res.map_ok.mp (show (litIntParse s).map _ = _ from h)
    obtain ⟨a, h3, _⟩ := andThen_ok.mp (show (synIntParse s).andThen litIntOf = .ok (r.1, r.2) s' from h1)
    simp only [Prod.mk.injEq] at h2
    rw [h2.2] at h3
    obtain ⟨t, h4, h5⟩ := cls (c := 2) (by intro t a h; split at h; rfl; cases h) h3
    exact ⟨t, h4, fun c hc => by injection hc with hc; rw [h5]; exact hc⟩
  | uint =>
    obtain ⟨r, h1, h2⟩ := Res.map_ok.mp (show (litUintParse s).map _ = _ from h)
    obtain ⟨a, h3, _⟩ := andThen_ok.mp (show (synIntParse s).andThen litUintOf = .ok (r.1, r.2) s' from h1)
    simp only [Prod.mk.injEq] at h2
    rw [h2.2] at h3
    obtain ⟨t, h4, h5⟩ := cls (c := 2) (by intro t a h; split at h; rfl; cases h) h3
    exact ⟨t, h4, fun c hc => by injection hc with hc; rw [h5]; exact hc⟩
  | float =>
    obtain ⟨r, h1, h2⟩ := Res.map_ok.mp (show (litFloatParse s).map _ = _ from h)
    obtain ⟨a, h3, _⟩ := andThen_ok.mp (show Res.andThen _ litFloatOf = .ok (r.1, r.2) s' from h1)
    simp only [Prod.mk.injEq] at h2
    rw [h2.2] at h3
    obtain ⟨t, h4, h5⟩ := cls (c := 3) (by intro t a h; split at h; rfl; cases h) h3
    exact ⟨t, h4, fun c hc => by injection hc with hc; rw [h5]; exact hc⟩
  | bool =>
    obtain ⟨r, h1, h2⟩ := Res.map_ok.mp (show (litBoolParse s).map _ = _ from h)
    simp only [Prod.mk.injEq] at h2
    have h3 : litBoolParse s = .ok (r.1, sp) s' := by rw [h1, ← h2.2]
    obtain ⟨t, h4, h5⟩ := cls (c := 0) (by intro t a h; split at h; rfl; cases h) h3
    exact ⟨t, h4, fun c hc => by injection hc with hc; rw [h5]; exact hc⟩
  | byte =>
    obtain ⟨r, h1, h2⟩ := Res.map_ok.mp (show (litByteParse s).map _ = _ from h)
    simp only [Prod.mk.injEq] at h2
    have h3 : litByteParse s = .ok (r.1, sp) s' := by rw [h1, ← h2.2]
    obtain ⟨t, h4, h5⟩ := cls (c := 1) (by intro t a h; split at h; rfl; cases h) h3
    exact ⟨t, h4, fun c hc => by injection hc with hc; rw [h5]; exact hc⟩
  | char =>
    obtain ⟨r, h1, h2⟩ := Res.map_ok.mp (show (litCharParse s).map _ = _ from h)
    simp only [Prod.mk.injEq] at h2
    have h3 : litCharParse s = .ok (r.1, sp) s' := by rw [h1, ← h2.2]
    obtain ⟨t, h4, h5⟩ := cls (c := 4) (by intro t a h; split at h; rfl; cases h) h3
    exact ⟨t, h4, fun c hc => by injection hc with hc; rw [h5]; exact hc⟩
  | str =>
    obtain ⟨r, h1, h2⟩ := Res.map_ok.mp (show (litStrParse s).map _ = _ from h)
    simp only [Prod.mk.injEq] at h2
    have h3 : litStrParse s = .ok (r.1, sp) s' := by rw [h1, ← h2.2]
    obtain ⟨t, h4, h5⟩ := cls (c := 5) (by intro t a h; split at h; rfl; cases h) h3
    exact ⟨t, h4, fun c hc => by injection hc with hc; rw [h5]; exact hc⟩
  | byteStr =>
    obtain ⟨r, h1, h2⟩ := Res.map_ok.mp (show (litByteStrParse s).map _ = _ from h)
    simp only [Prod.mk.injEq] at h2
    have h3 : litByteStrParse s = .ok (r.1, sp) s' := by rw [h1, ← h2.2]
    obtain ⟨t, h4, h5⟩ := cls (c := 6) (by intro t a h; split at h; rfl; cases h) h3
    exact ⟨t, h4, fun c hc => by injection hc with hc; rw [h5]; exact hc⟩

/-! ### the first token of what is printed -/

omit [Ext] in
theorem next_ident {x : Text} {sp : Span} {k : List TT} : uncons (.ident x sp :: k) = some (.ident x sp, k) := (uncons_iff _ _ _).mpr (next_cons (by simp) _)
omit [Ext] in
theorem next_punct {c : Char} {j : Spacing} {sp : Span} {k : List TT} : uncons (.punct c j sp :: k) = some (.punct c j sp, k) :=
  (uncons_iff _ _ _).mpr (next_cons (by simp) _)
omit [Ext] in
theorem next_lit {r : Text} {sp : Span} {k : List TT} : uncons (.lit r sp :: k) = some (.lit r sp, k) := (uncons_iff _ _ _).mpr (next_cons (by simp) _)

/-- A word belongs to the set. -/
def Spec.Words.Has : Words → Text → Prop
  | .only l, x => x ∈ l
  | .allBut l, x => x ∉ l

theorem words_apart {a b : Words} (h : a.apart b = true) {x : Text} (hb : b.Has x) : ¬ a.Has x := by
  intro ha
  cases a <;> cases b <;> simp only [Words.apart, List.all_eq_true, Words.Has, Bool.not_eq_true', List.contains_iff_mem, Bool.false_eq_true] at *
  case only.only l m => have := h x ha; simp only [List.contains_eq_mem, decide_eq_false_iff_not] at this; exact this hb
  case only.allBut l m => exact hb (h x ha)
  case allBut.only l m => exact ha (h x hb)

theorem synLit_word {x : Text} {sp sc : Span} {ux : Option Span} {k : List TT} (h1 : x ≠ "true".toList) (h2 : x ≠ "false".toList) :
    ∃ e, synLitParse ⟨.ident x sp :: k, sc, ux⟩ = .err e := by
  unfold synLitParse
  rw [next_ident]
  exact ⟨_, (if_neg h1).trans (if_neg h2)⟩

/-- A word that does not belong to a leaf or group is refused. -/
theorem refuses_word {env : Env} {u : Ty} (hu : picky u = true) {x : Text} (hx : ¬ (words u).Has x) (sp : Span) (k : List TT) :
    Refuses env u (.ident x sp :: k) := by
  cases u with
  | leaf l =>
    refine refuses_leaf fun sc ux => ?_
    cases l with
    | empty => cases hu
    | notEof => cases hu
    | eof => exact ⟨_, rfl⟩
    | customIdent kws =>
      have hx : x ∈ kws := Classical.not_not.mp hx
      have : kws.any (fun kw => decide (x = kw)) = true := List.any_eq_true.mpr ⟨x, hx, by simp⟩
      simp only [leafParse, customIdentParse, parseAnyIdent, next_ident, Res.bind_okc, customIdentTryFrom, this, if_true, Res.map_errc]
      exact ⟨_, rfl⟩
    | rustIdent =>
      have hx : x ∈ rustKeywords := Classical.not_not.mp hx
      have h1 : ∃ e, parseRustIdent ⟨.ident x sp :: k, sc, ux⟩ = .err e := by
        unfold parseRustIdent
        rw [next_ident]
        exact ⟨_, if_pos (List.contains_iff_mem.mpr hx)⟩
      obtain ⟨e, h1⟩ := h1
      exact ⟨e, by show (parseRustIdent _).map _ = _; rw [h1]; rfl⟩
    | keyword kw =>
      have hx : x ≠ kw := fun h => hx (List.mem_singleton.mpr h)
      simp only [leafParse, keywordParse, parseAnyIdent, next_ident, Res.bind_okc, if_neg hx, Res.map_errc]
      exact ⟨_, rfl⟩
    | kwToken kw =>
      have hx : x ≠ kw := fun h => hx (List.mem_singleton.mpr h)
      simp only [leafParse, parseKwToken, next_ident, if_neg hx, Res.map_errc]
      exact ⟨_, rfl⟩
    | punct tok =>
      have : punctLoop tok (.ident x sp :: k) = none := by
        match tok with
        | [] => cases hu
        | [c] => simp only [punctLoop, next_ident]
        | c :: d :: tok => simp only [punctLoop, next_ident]
      simp only [leafParse, parsePunct, this, Res.map_errc]
      exact ⟨_, rfl⟩
    | lit j =>
      have fin : (∃ e, litKindParse j ⟨.ident x sp :: k, sc, ux⟩ = .err e) → ∃ e, leafParse (.lit j) ⟨.ident x sp :: k, sc, ux⟩ = .err e := by
        rintro ⟨e, he⟩
        exact ⟨e, by show (litKindParse j _).map _ = _; rw [he]; rfl⟩
      refine fin ?_
      have err : x ≠ "true".toList → x ≠ "false".toList → ∃ e, litKindParse j ⟨.ident x sp :: k, sc, ux⟩ = .err e := fun h1 h2 => by
        obtain ⟨e, he⟩ := synLit_word (sp := sp) (sc := sc) (ux := ux) (k := k) h1 h2
        exact litKind_err he
      have bool : ∀ c, litClass j = some c → 0 ≠ c → ∃ e, litKindParse j ⟨.ident x sp :: k, sc, ux⟩ = .err e := by
        intro c hc h0
        rcases Classical.em (x = "true".toList) with h1 | h1
        · have : synLitParse ⟨.ident x sp :: k, sc, ux⟩ = .ok (.bool true, sp) ⟨k, sc, ux⟩ := by
            unfold synLitParse; rw [next_ident]; exact if_pos h1
          exact litKind_other this hc h0
        · rcases Classical.em (x = "false".toList) with h2 | h2
          · have : synLitParse ⟨.ident x sp :: k, sc, ux⟩ = .ok (.bool false, sp) ⟨k, sc, ux⟩ := by
              unfold synLitParse; rw [next_ident]; exact (if_neg h1).trans (if_pos h2)
            exact litKind_other this hc h0
          · exact err h1 h2
      have two : ¬ x ∈ ["true".toList, "false".toList] → ∃ e, litKindParse j ⟨.ident x sp :: k, sc, ux⟩ = .err e := fun h =>
        err (fun h1 => h (by rw [h1]; exact .head _)) (fun h1 => h (by rw [h1]; exact .tail _ (.head _)))
      cases j with
      | bool => exact two hx
      | any => exact two hx
      | byte => exact bool 1 rfl (by decide)
      | int => exact bool 2 rfl (by decide)
      | uint => exact bool 2 rfl (by decide)
      | float => exact bool 3 rfl (by decide)
      | char => exact bool 4 rfl (by decide)
      | str => exact bool 5 rfl (by decide)
      | byteStr => exact bool 6 rfl (by decide)
  | paren t => exact refuses_group rfl fun _ _ _ h => by rw [next_ident] at h; cases h
  | bracket t => exact refuses_group rfl fun _ _ _ h => by rw [next_ident] at h; cases h
  | brace t => exact refuses_group rfl fun _ _ _ h => by rw [next_ident] at h; cases h
  | _ => cases hu

/-- The literal leaf refuses if no literal is there. -/
theorem refuses_lit {env : Env} {j : LitKind} {ts : List TT} (h : ∀ sc ux, ∃ e, litKindParse j ⟨ts, sc, ux⟩ = .err e) : Refuses env (.leaf (.lit j)) ts :=
  refuses_leaf fun sc ux => by
    obtain ⟨e, he⟩ := h sc ux
    exact ⟨e, by show (litKindParse j _).map _ = _; rw [he]; rfl⟩

/-- What is not a word, an operator or a literal for a leaf, is refused: leaves for which the next token is of the wrong sort. -/
theorem refuses_sort {env : Env} {l : Leaf} {x : TT} {ts k : List TT} (hu : picky (.leaf l) = true) (hn : uncons ts = some (x, k))
    (hi : ∀ y sp, x ≠ .ident y sp) (hp : ∀ tok, l = .punct tok → ∀ c j sp, x ≠ .punct c j sp)
    (hl : ∀ j, l = .lit j → (∀ r sp, x ≠ .lit r sp) ∧ ∀ c j sp, x ≠ .punct c j sp) : Refuses env (.leaf l) ts := by
  refine refuses_leaf fun sc ux => ?_
  have any : ∃ e, parseAnyIdent ⟨ts, sc, ux⟩ = .err e := by
    unfold parseAnyIdent
    rw [show uncons (PState.cur ⟨ts, sc, ux⟩) = some (x, k) from hn]
    split
    · rename_i h; injection h with h; injection h with h; exact absurd h (hi _ _)
    · exact ⟨_, rfl⟩
  cases l with
  | empty => cases hu
  | notEof => cases hu
  | eof =>
    cases ts with
    | nil => simp [uncons] at hn
    | cons y ts => exact ⟨_, rfl⟩
  | customIdent kws =>
    obtain ⟨e, he⟩ := any
    simp only [leafParse, customIdentParse, he, Res.bind_errc, Res.map_errc]
    exact ⟨_, rfl⟩
  | rustIdent =>
    have h1 : ∃ e, parseRustIdent ⟨ts, sc, ux⟩ = .err e := by
      unfold parseRustIdent
      rw [show uncons (PState.cur ⟨ts, sc, ux⟩) = some (x, k) from hn]
      split
      · rename_i h; injection h with h; injection h with h; exact absurd h (hi _ _)
      · exact ⟨_, rfl⟩
    obtain ⟨e, h1⟩ := h1
    exact ⟨e, by show (parseRustIdent _).map _ = _; rw [h1]; rfl⟩
  | keyword kw =>
    obtain ⟨e, he⟩ := any
    simp only [leafParse, keywordParse, he, Res.bind_errc, Res.map_errc]
    exact ⟨_, rfl⟩
  | kwToken kw =>
    have h1 : ∃ e, parseKwToken kw ⟨ts, sc, ux⟩ = .err e := by
      unfold parseKwToken
      rw [show uncons (PState.cur ⟨ts, sc, ux⟩) = some (x, k) from hn]
      split
      · rename_i h; injection h with h; injection h with h; exact absurd h (hi _ _)
      · exact ⟨_, rfl⟩
    obtain ⟨e, h1⟩ := h1
    exact ⟨e, by show (parseKwToken kw _).map _ = _; rw [h1]; rfl⟩
  | punct tok =>
    have h0 := hp tok rfl
    have : punctLoop tok ts = none := by
      match tok with
      | [] => cases hu
      | [c] =>
        simp only [punctLoop, hn]
        split
        · rename_i h; injection h with h; injection h with h; exact absurd h (h0 _ _ _)
        · rfl
      | c :: d :: tok =>
        simp only [punctLoop, hn]
        split
        · rename_i h; injection h with h; injection h with h; exact absurd h (h0 _ _ _)
        · rfl
    simp only [leafParse, parsePunct, this, Res.map_errc]
    exact ⟨_, rfl⟩
  | lit j =>
    have h0 := hl j rfl
    have : ∃ e, synLitParse ⟨ts, sc, ux⟩ = .err e := by
      unfold synLitParse
      rw [show uncons (PState.cur ⟨ts, sc, ux⟩) = some (x, k) from hn]
      split
      · rename_i h; injection h with h; injection h with h; exact absurd h (h0.1 _ _)
      · rename_i h; injection h with h; injection h with h; exact absurd h (hi _ _)
      · rename_i h; injection h with h; injection h with h; exact absurd h (h0.2 _ _ _)
      · exact ⟨_, rfl⟩
    obtain ⟨e, he⟩ := this
    obtain ⟨e, he⟩ := litKind_err (k := j) he
    exact ⟨e, by show (litKindParse j _).map _ = _; rw [he]; rfl⟩

/-! ### operators -/

omit [Ext] in
theorem punctLoop_apart : ∀ (a b : Text) (sps : List Span) (k : List TT), a ≠ [] → b ≠ [] → sps.length = b.length → a.isPrefixOf b = false →
    punctLoop a (punctTokens b sps ++ k) = none
  | [], _, _, _, h, _, _, _ => absurd rfl h
  | _, [], _, _, _, h, _, _ => absurd rfl h
  | _, _ :: _, [], _, _, _, h, _ => by simp at h
  | [c], e :: b, sp :: sps, k, _, _, _, hp => by
    have hc : e ≠ c := by rintro rfl; simp at hp
    have : ∃ j r, punctTokens (e :: b) (sp :: sps) = .punct e j sp :: r := by
      cases b <;> cases sps <;> exact ⟨_, _, rfl⟩
    obtain ⟨j, r, hr⟩ := this
    rw [hr]
    simp only [punctLoop, List.cons_append, next_punct, hc, and_false, if_false]
  | c :: d :: a, [e], [sp], k, _, _, _, hp => by
    simp only [punctTokens, punctLoop, List.cons_append, next_punct, and_false, if_false, reduceCtorEq]
  | c :: d :: a, [e], _ :: _ :: _, k, _, _, h, hp => by simp at h
  | c :: d :: a, e :: f :: b, [_], k, _, _, h, hp => by simp at h
  | c :: d :: a, e :: f :: b, sp :: sq :: sps, k, _, _, hl, hp => by
    have hr : punctTokens (e :: f :: b) (sp :: sq :: sps) = .punct e .joint sp :: punctTokens (f :: b) (sq :: sps) := rfl
    rw [hr]
    simp only [punctLoop, List.cons_append, next_punct]
    split
    · rename_i h
      have hp' : (d :: a).isPrefixOf (f :: b) = false := by
        have := hp
        rw [show e = c from h.2.1] at this
        simpa [List.isPrefixOf] using this
      rw [punctLoop_apart (d :: a) (f :: b) (sq :: sps) k (by simp) (by simp) (by simpa using hl) hp']
    · rfl

theorem synLit_notMinus {c : Char} {j : Spacing} {sp sc : Span} {ux : Option Span} {k : List TT} (hc : c ≠ '-') :
    ∃ e, synLitParse ⟨.punct c j sp :: k, sc, ux⟩ = .err e := by
  unfold synLitParse
  rw [next_punct]
  split
  · rename_i h; injection h with h; injection h with h; cases h
  · rename_i h; injection h with h; injection h with h; cases h
  · rename_i h; injection h with h; injection h with h; injection h with h; exact absurd h hc
  · exact ⟨_, rfl⟩

theorem synLit_minus_other {j : Spacing} {sp sc : Span} {ux : Option Span} {k : List TT} (hk : ∀ r sp rest, uncons k ≠ some (.lit r sp, rest)) :
    ∃ e, synLitParse ⟨.punct '-' j sp :: k, sc, ux⟩ = .err e := by
  unfold synLitParse
  rw [next_punct]
  simp only
  first | exact ⟨_, rfl⟩ | (split; (rename_i h; exact absurd h (hk _ _ _)); exact ⟨_, rfl⟩)

theorem synLit_minus_any (j : Spacing) (sp sc : Span) (ux : Option Span) (k : List TT) :
    (∃ e, synLitParse ⟨.punct '-' j sp :: k, sc, ux⟩ = .err e) ∨
      ∃ t sp' s', synLitParse ⟨.punct '-' j sp :: k, sc, ux⟩ = .ok (t, sp') s' ∧ (tokClass t = 2 ∨ tokClass t = 3) := by
  unfold synLitParse
  rw [next_punct]
  simp only
  split
  · split
    · exact .inr ⟨_, _, _, rfl, .inl rfl⟩
    · split
      · exact .inr ⟨_, _, _, rfl, .inr rfl⟩
      · exact .inl ⟨_, rfl⟩
  · exact .inl ⟨_, rfl⟩

theorem punctTokens_ne {b : Text} {sps : List Span} (hb : b ≠ []) (hl : sps.length = b.length) :
    ∃ c j sp r, punctTokens b sps = .punct c j sp :: r ∧ ((∃ b', b = c :: b') ∧ (r = [] ∧ b = [c] ∨ ∃ d j' sp' r', r = .punct d j' sp' :: r')) := by
  match b, sps with
  | [], _ => exact absurd rfl hb
  | [c], [sp] => exact ⟨c, _, sp, [], rfl, ⟨_, rfl⟩, .inl ⟨rfl, rfl⟩⟩
  | [c], [] => simp at hl
  | [c], _ :: _ :: _ => simp at hl
  | c :: d :: b, [] => simp at hl
  | c :: d :: b, [_] => simp at hl
  | c :: d :: b, sp :: sq :: sps =>
    refine ⟨c, _, sp, _, rfl, ⟨_, rfl⟩, .inr ?_⟩
    cases b <;> cases sps <;> exact ⟨_, _, _, _, rfl⟩

/-- A literal leaf refuses a printed operator. -/
theorem lit_refuses_punct {env : Env} {j : LitKind} {b : Text} {sps : List Span} (hb : b ≠ []) (hl : sps.length = b.length)
    (h : readsNegative j = true → b ≠ ['-']) (k : List TT) : Refuses env (.leaf (.lit j)) (punctTokens b sps ++ k) := by
  refine refuses_lit fun sc ux => ?_
  obtain ⟨c, jn, sp, r, hr, ⟨b', hb'⟩, hrest⟩ := punctTokens_ne hb hl
  rw [hr, List.cons_append]
  rcases Classical.em (c = '-') with hc | hc
  · subst hc
    rcases hrest with ⟨rfl, hb1⟩ | ⟨d, j', sp', r', rfl⟩
    · have hj : readsNegative j = false := by
        cases hj : readsNegative j with
        | false => rfl
        | true => exact absurd hb1 (h hj)
      rcases synLit_minus_any jn sp sc ux ([] ++ k) with ⟨e, he⟩ | ⟨t, sp', s', ht, hcl⟩
      · exact litKind_err he
      · cases j with
        | int => cases hj
        | uint => cases hj
        | float => cases hj
        | any => cases hj
        | bool => exact litKind_other ht (c := 0) rfl (by omega)
        | byte => exact litKind_other ht (c := 1) rfl (by omega)
        | char => exact litKind_other ht (c := 4) rfl (by omega)
        | str => exact litKind_other ht (c := 5) rfl (by omega)
        | byteStr => exact litKind_other ht (c := 6) rfl (by omega)
    · obtain ⟨e, he⟩ := synLit_minus_other (j := jn) (sp := sp) (sc := sc) (ux := ux) (k := .punct d j' sp' :: r' ++ k)
        (by intro r s rest h; rw [List.cons_append, next_punct] at h; cases h)
      exact litKind_err he
  · obtain ⟨e, he⟩ := synLit_notMinus (j := jn) (sp := sp) (sc := sc) (ux := ux) (k := r ++ k) hc
    exact litKind_err he

/-! ### what leaves print -/

/-- The shapes of what a leaf prints, if it prints anything. -/
inductive Printed : Leaf → List TT → Prop
  | word {l x sp} : (words (.leaf l)).Has x → Printed l [.ident x sp]
  | punct {b sps} : b ≠ [] → sps.length = b.length → Printed (.punct b) (punctTokens b sps)
  | lit {k r sp} : Printed (.lit k) [.lit r sp]
  | minus {k r sp} : mayBeNegative k = true → Printed (.lit k) [.punct '-' .alone sp, .lit r sp]

theorem push_plain {k : LitKind} {r : Text} {sp : Span} (h : r.head? ≠ some '-') : Printed (.lit k) (pushLiteral r sp) := by
  unfold pushLiteral
  split
  · simp at h
  · exact .lit

theorem push_any {k : LitKind} {r : Text} {sp : Span} (h : mayBeNegative k = true) : Printed (.lit k) (pushLiteral r sp) := by
  unfold pushLiteral
  split
  · exact .minus h
  · exact .lit

theorem litByteRepr_head {b : Byte} {r : Text} (h : litByteRepr b = some r) : r.head? ≠ some '-' := by
  obtain ⟨r', _, rfl⟩ := Option.map_eq_some_iff.mp (show (readLit _).map _ = some r from by
    unfold litByteRepr at h
    simp only at h
    split at h
    · exact h
    · cases h)
  rw [List.append_assoc]
  exact fun h => by cases h

theorem leaf_prints {l : Leaf} {v : LeafVal} (h : LeafTy l v) {ts : List TT} (ht : leafToTokens l v = some ts) (hne : ts ≠ []) : Printed l ts := by
  cases h with
  | empty => simp only [leafToTokens, Option.some.injEq] at ht; exact absurd ht.symm hne
  | eof => simp only [leafToTokens, Option.some.injEq] at ht; exact absurd ht.symm hne
  | notEof => simp only [leafToTokens, Option.some.injEq] at ht; exact absurd ht.symm hne
  | customIdent hx => simp only [leafToTokens, Option.some.injEq] at ht; subst ht; exact .word hx
  | rustIdent hx => simp only [leafToTokens, Option.some.injEq] at ht; subst ht; exact .word hx
  | keyword =>
    simp only [leafToTokens] at ht
    split at ht
    · simp only [Option.some.injEq] at ht; subst ht; exact .word (.head _)
    · cases ht
  | kwToken => simp only [leafToTokens, Option.some.injEq] at ht; subst ht; exact .word (.head _)
  | @punct tok sps hl =>
    simp only [leafToTokens, Option.some.injEq] at ht; subst ht
    refine .punct ?_ hl
    rintro rfl
    cases sps with
    | nil => exact hne rfl
    | cons _ _ => simp at hl
  | @bool b sp =>
    replace ht : some [TT.ident (if b then "true".toList else "false".toList) sp] = some ts := ht
    injection ht with ht; subst ht
    cases b
    · exact .word (.tail _ (.head _))
    · exact .word (.head _)
  | byte =>
    obtain ⟨r, hr, rfl⟩ := Option.map_eq_some_iff.mp ht
    exact push_plain (litByteRepr_head hr)
  | int => replace ht := Option.some.inj ht; subst ht; exact push_any rfl
  | uint => replace ht := Option.some.inj ht; subst ht; exact push_plain (natText_head_ne_minus _)
  | float =>
    obtain ⟨r, hr, rfl⟩ := Option.map_eq_some_iff.mp ht
    exact push_any rfl
  | char => replace ht := Option.some.inj ht; subst ht; exact push_plain (by unfold charLiteral; simp)
  | str => replace ht := Option.some.inj ht; subst ht; exact push_plain (by unfold stringLiteral; simp)
  | byteStr => replace ht := Option.some.inj ht; subst ht; exact push_plain (by unfold byteStringLiteral; simp)
  | @any lv sp hr hneg =>
    cases lv with
    | bool b =>
      replace ht : some [TT.ident (if b then "true".toList else "false".toList) sp] = some ts := ht
      injection ht with ht; subst ht
      cases b
      · exact .word (.tail _ (.head _))
      · exact .word (.head _)
    | byte => obtain ⟨r, hr, rfl⟩ := Option.map_eq_some_iff.mp ht; exact push_any rfl
    | float => obtain ⟨r, hr, rfl⟩ := Option.map_eq_some_iff.mp ht; exact push_any rfl
    | int => replace ht := Option.some.inj ht; subst ht; exact push_any rfl
    | uint => replace ht := Option.some.inj ht; subst ht; exact push_any rfl
    | char => replace ht := Option.some.inj ht; subst ht; exact push_any rfl
    | str => replace ht := Option.some.inj ht; subst ht; exact push_any rfl
    | byteStr => replace ht := Option.some.inj ht; subst ht; exact push_any rfl

/-! ### apart -/

theorem refuses_eof_leaf {env : Env} {ts : List TT} (h : ts ≠ []) : Refuses env (.leaf .eof) ts :=
  refuses_leaf fun sc ux => by
    cases ts with
    | nil => exact absurd rfl h
    | cons t ts => exact ⟨_, rfl⟩

theorem refuses_lit_lit (laws : FloatLaws) {env : Env} {j k : LitKind} {a b : Nat} (ha : litClass j = some a) (hb : litClass k = some b) (hab : a ≠ b)
    {v : LeafVal} (hv : LeafTy (.lit k) v) {ts : List TT} (ht : leafToTokens (.lit k) v = some ts) (rest : List TT) :
    Refuses env (.leaf (.lit j)) (ts ++ rest) := by
  refine refuses_lit fun sc ux => ?_
  have hs : LeafSurvives (.lit k) v := by
    cases k <;> first | trivial | cases hb
  have hback := leaf_back laws (env := env) (k := rest) (sc := sc) (ux := ux) hv hs ht (by intro u hu; cases hu)
  obtain ⟨r, hr, _⟩ := Res.map_ok.mp (show (litKindParse k _).map _ = _ from hback)
  obtain ⟨t, h1, h2⟩ := litKind_tok (show litKindParse k _ = .ok (r.1, r.2) _ from hr)
  exact litKind_other h1 ha (by rw [h2 b hb]; exact fun h => hab h.symm)

/-- What the checker takes to be apart, is. -/
theorem apart_sound (laws : FloatLaws) {env : Env} {u w : Ty} (h : apart u w = true) : Apart env u w := by
  intro v ts hv ht hne k
  rcases Classical.em (u = .leaf .eof) with rfl | hu0
  · exact refuses_eof_leaf (by simp [hne])
  have silent : ∀ l, (l = .eof ∨ l = .notEof) → w = .leaf l → Refuses env u (ts ++ k) := by
    rintro l hl rfl
    cases hv with
    | leaf hl' => rcases hl with rfl | rfl <;> cases hl' <;> simp only [Val.toTokens, leafToTokens, Option.some.injEq] at ht <;> exact absurd ht.symm hne
  rcases Classical.em (w = .leaf .eof) with hw | hw0
  · exact silent _ (.inl rfl) hw
  rcases Classical.em (w = .leaf .notEof) with hw | hw1
  · exact silent _ (.inr rfl) hw
  simp only [apart, Bool.or_eq_true, beq_iff_eq, hu0, hw0, hw1, false_or, Bool.and_eq_true] at h
  obtain ⟨⟨⟨hpu, hpw⟩, hwords⟩, hother⟩ := h
  have grp : ∀ d inner sp, ts = [.group d inner sp] → d ≠ .none → groupDelim w = some d → Refuses env u (ts ++ k) := by
    rintro d inner sp rfl hd hg
    have hnx : uncons ([TT.group d inner sp] ++ k) = some (.group d inner sp, k) := (uncons_iff _ _ _).mpr (next_cons (by simp [hd]) _)
    cases u with
    | leaf l => exact refuses_sort hpu hnx (by simp) (by simp) (by simp)
    | paren t =>
      refine refuses_group rfl fun _ _ _ h => ?_
      rw [hnx] at h; injection h with h; injection h with h; injection h with h; subst h
      cases w <;> first | (cases hg; done) | (cases hother; done)
    | bracket t =>
      refine refuses_group rfl fun _ _ _ h => ?_
      rw [hnx] at h; injection h with h; injection h with h; injection h with h; subst h
      cases w <;> first | (cases hg; done) | (cases hother; done)
    | brace t =>
      refine refuses_group rfl fun _ _ _ h => ?_
      rw [hnx] at h; injection h with h; injection h with h; injection h with h; subst h
      cases w <;> first | (cases hg; done) | (cases hother; done)
    | _ => cases hpu
  cases w with
  | leaf l =>
    cases hv with
    | @leaf _ lv hl =>
      replace ht : leafToTokens l lv = some ts := ht
      have hp := leaf_prints hl ht hne
      cases hp with
      | word hx => exact refuses_word hpu (words_apart hwords hx) _ _
      | @punct b sps hb hlen =>
        obtain ⟨c, jn, sp, r, hr, _, _⟩ := punctTokens_ne hb hlen
        have hnx : uncons (punctTokens b sps ++ k) = some (.punct c jn sp, r ++ k) := by rw [hr]; exact next_punct
        cases u with
        | leaf l' =>
          cases l' with
          | punct a =>
            have ha : a ≠ [] := by rintro rfl; cases hpu
            have hpre : a.isPrefixOf b = false := by simpa [apartOther] using hother
            exact refuses_leaf fun sc ux => by
              simp only [leafParse, parsePunct, punctLoop_apart a b sps k ha hb hlen hpre, Res.map_errc]
              exact ⟨_, rfl⟩
          | lit j =>
            refine lit_refuses_punct hb hlen ?_ k
            rintro hj rfl
            simp [apartOther, hj] at hother
          | _ => exact refuses_sort hpu hnx (by simp) (by simp) (by simp)
        | paren t => exact refuses_group rfl fun _ _ _ h => by rw [hnx] at h; cases h
        | bracket t => exact refuses_group rfl fun _ _ _ h => by rw [hnx] at h; cases h
        | brace t => exact refuses_group rfl fun _ _ _ h => by rw [hnx] at h; cases h
        | _ => cases hpu
      | @lit kk r sp =>
        have hnx : uncons ([TT.lit r sp] ++ k) = some (.lit r sp, k) := next_lit
        cases u with
        | leaf l' =>
          cases l' with
          | lit j =>
            simp only [apartOther] at hother
            split at hother
            · rename_i ha hb; exact refuses_lit_lit laws ha hb (by simpa using hother) hl ht k
            · cases hother
          | _ => exact refuses_sort hpu hnx (by simp) (by simp) (by simp)
        | paren t => exact refuses_group rfl fun _ _ _ h => by rw [hnx] at h; cases h
        | bracket t => exact refuses_group rfl fun _ _ _ h => by rw [hnx] at h; cases h
        | brace t => exact refuses_group rfl fun _ _ _ h => by rw [hnx] at h; cases h
        | _ => cases hpu
      | @minus kk r sp hmin =>
        have hnx : uncons ([TT.punct '-' .alone sp, TT.lit r sp] ++ k) = some (.punct '-' .alone sp, .lit r sp :: k) := next_punct
        cases u with
        | leaf l' =>
          cases l' with
          | punct a =>
            have hnd : a ≠ ['-'] := by rintro rfl; simp [apartOther, hmin] at hother
            have hnone : punctLoop a ([TT.punct '-' .alone sp, TT.lit r sp] ++ k) = none := by
              match a with
              | [] => cases hpu
              | [c] =>
                have hc : '-' ≠ c := fun h => hnd (by rw [h])
                simp only [punctLoop, hnx, hc, and_false, if_false]
              | c :: d :: a => simp only [punctLoop, hnx, and_false, if_false, reduceCtorEq]
            exact refuses_leaf fun sc ux => by
              simp only [leafParse, parsePunct, hnone, Res.map_errc]
              exact ⟨_, rfl⟩
          | lit j =>
            simp only [apartOther] at hother
            split at hother
            · rename_i ha hb; exact refuses_lit_lit laws ha hb (by simpa using hother) hl ht k
            · cases hother
          | _ => exact refuses_sort hpu hnx (by simp) (by simp) (by simp)
        | paren t => exact refuses_group rfl fun _ _ _ h => by rw [hnx] at h; cases h
        | bracket t => exact refuses_group rfl fun _ _ _ h => by rw [hnx] at h; cases h
        | brace t => exact refuses_group rfl fun _ _ _ h => by rw [hnx] at h; cases h
        | _ => cases hpu
  | paren t =>
    cases hv with
    | paren hv => obtain ⟨inner, _, hi⟩ := Option.map_eq_some_iff.mp ht; exact grp .paren inner _ hi.symm (by simp) rfl
  | bracket t =>
    cases hv with
    | bracket hv => obtain ⟨inner, _, hi⟩ := Option.map_eq_some_iff.mp ht; exact grp .bracket inner _ hi.symm (by simp) rfl
  | brace t =>
    cases hv with
    | brace hv => obtain ⟨inner, _, hi⟩ := Option.map_eq_some_iff.mp ht; exact grp .brace inner _ hi.symm (by simp) rfl
  | _ => cases hpw

/-- What the checker takes to refuse the end of the input, does. -/
theorem refusesEnd_sound {env : Env} {u : Ty} (h : refusesEnd u = true) : Refuses env u [] := by
  simp only [refusesEnd, Bool.or_eq_true, beq_iff_eq, Bool.and_eq_true, bne_iff_ne] at h
  have nx : uncons [] = none := by simp [uncons]
  rcases h with rfl | ⟨hp, hne⟩
  · exact refuses_leaf fun sc ux => ⟨_, rfl⟩
  · cases u with
    | leaf l =>
      refine refuses_leaf fun sc ux => ?_
      cases l with
      | empty => cases hp
      | notEof => cases hp
      | eof => exact absurd rfl hne
      | customIdent kws => simp only [leafParse, customIdentParse, parseAnyIdent, nx, Res.bind_errc, Res.map_errc]; exact ⟨_, rfl⟩
      | rustIdent => simp only [leafParse, parseRustIdent, nx, Res.map_errc]; exact ⟨_, rfl⟩
      | keyword kw => simp only [leafParse, keywordParse, parseAnyIdent, nx, Res.bind_errc, Res.map_errc]; exact ⟨_, rfl⟩
      | kwToken kw => simp only [leafParse, parseKwToken, nx, Res.map_errc]; exact ⟨_, rfl⟩
      | punct tok =>
        have : punctLoop tok [] = none := by
          match tok with
          | [] => cases hp
          | [c] => simp only [punctLoop, nx]
          | c :: d :: tok => simp only [punctLoop, nx]
        simp only [leafParse, parsePunct, this, Res.map_errc]; exact ⟨_, rfl⟩
      | lit j =>
        have : ∃ e, synLitParse ⟨[], sc, ux⟩ = .err e := by unfold synLitParse; rw [nx]; exact ⟨_, rfl⟩
        obtain ⟨e, he⟩ := this
        obtain ⟨e, he⟩ := litKind_err (k := j) he
        exact ⟨e, by show (litKindParse j _).map _ = _; rw [he]; rfl⟩
    | paren t => exact refuses_group rfl fun _ _ _ h => by rw [nx] at h; cases h
    | bracket t => exact refuses_group rfl fun _ _ _ h => by rw [nx] at h; cases h
    | brace t => exact refuses_group rfl fun _ _ _ h => by rw [nx] at h; cases h
    | _ => cases hp

end Parsel
