import Verif.Spec.Relocate
import Verif.Proofs.Blind
import Verif.Proofs.Furthest
import Verif.Proofs.Where

/-! Errors in two streams that consist of the same tokens. -/

namespace Parsel
open Spec

section
variable (St : List TT → Span → List TT → Span → Prop) (Sp : Span → Span → Prop)

/-- What two related positions have in front of them. -/
inductive Heads : List TT → Span → List TT → Span → Prop
  | stop {sc sc'} : Sp sc sc' → Heads [] sc [] sc'
  | ident {x sp sp' a b sc sc'} : Sp sp sp' → St a sc b sc' → Heads (.ident x sp :: a) sc (.ident x sp' :: b) sc'
  | punct {c spc sp sp' a b sc sc'} : Sp sp sp' → St a sc b sc' → Heads (.punct c spc sp :: a) sc (.punct c spc sp' :: b) sc'
  | lit {r sp sp' a b sc sc'} : Sp sp sp' → St a sc b sc' → Heads (.lit r sp :: a) sc (.lit r sp' :: b) sc'
  | group {d i j sp sp' a b sc sc'} : d ≠ .none → Sp sp.openOf sp'.openOf → Sp sp sp' → St i sp.closeOf j sp'.closeOf → St a sc b sc' →
      Heads (.group d i sp :: a) sc (.group d j sp' :: b) sc'

/-- Related positions and locations. -/
structure Couples : Prop where
  head : ∀ {a sc b sc'}, St a sc b sc' → Heads St Sp a sc b sc'
  number : ∀ {spc sp1 r sp2 a sc spc' sp1' r' sp2' b sc'}, St (.punct '-' spc sp1 :: .lit r sp2 :: a) sc (.punct '-' spc' sp1' :: .lit r' sp2' :: b) sc' →
    Sp (sp1.join sp2) (sp1'.join sp2')
  order : ∀ {a a' b b'}, Sp a a' → Sp b b' → a.stop.lt b.stop = a'.stop.lt b'.stop

/-- Related contents of the "unexpected" cell. -/
inductive PairCell : Option Span → Option Span → Prop
  | none : PairCell none none
  | some {a b} : Sp a b → PairCell (some a) (some b)

/-- Related states. -/
structure PairState (s s' : PState) : Prop where
  cur : St s.cur s.scope s'.cur s'.scope
  unexp : PairCell Sp s.unexp s'.unexp

/-- Errors with the same message at related locations. -/
structure PairErr (e e' : Err) : Prop where
  span : Sp e.span e'.span
  msg : e.msg = e'.msg

/-- Related results of parsers on levels that end at `sc` and `sc'`. -/
inductive PairRes {α : Type} (R : α → α → Prop) (sc sc' : Span) : Res α → Res α → Prop
  | ok {a b s s'} : R a b → PairState St Sp s s' → s.scope = sc → s'.scope = sc' → PairRes R sc sc' (.ok a s) (.ok b s')
  | err {e e'} : PairErr Sp e e' → PairRes R sc sc' (.err e) (.err e')
  | panic : PairRes R sc sc' .panic .panic
  | oof : PairRes R sc sc' .oof .oof

/-- The parser does the same on related states, and reports the same errors. -/
def Paired {α : Type} (R : α → α → Prop) (p : Parser α) : Prop := ∀ s s', PairState St Sp s s' → PairRes St Sp R s.scope s'.scope (p s) (p s')

end

section
variable {St : List TT → Span → List TT → Span → Prop} {Sp : Span → Span → Prop}

theorem PairRes.map {α β : Type} {R : α → α → Prop} {S : β → β → Prop} {sc sc' : Span} {r r' : Res α} {f f' : α → β} (h : PairRes St Sp R sc sc' r r')
    (hf : ∀ a b, R a b → S (f a) (f' b)) : PairRes St Sp S sc sc' (r.map f) (r'.map f') := by
  cases h with
  | ok h1 h2 h3 h4 => exact .ok (hf _ _ h1) h2 h3 h4
  | err h => exact .err h
  | panic => exact .panic
  | oof => exact .oof

theorem PairRes.mono {α : Type} {R S : α → α → Prop} {sc sc' : Span} {r r' : Res α} (h : PairRes St Sp R sc sc' r r') (hf : ∀ a b, R a b → S a b) :
    PairRes St Sp S sc sc' r r' := by
  cases h with
  | ok h1 h2 h3 h4 => exact .ok (hf _ _ h1) h2 h3 h4
  | err h => exact .err h
  | panic => exact .panic
  | oof => exact .oof

theorem PairRes.bind {α β : Type} {R : α → α → Prop} {S : β → β → Prop} {sc sc' : Span} {r r' : Res α} {k k' : α → PState → Res β} (h : PairRes St Sp R sc sc' r r')
    (hf : ∀ a b s s', R a b → PairState St Sp s s' → PairRes St Sp S s.scope s'.scope (k a s) (k' b s')) : PairRes St Sp S sc sc' (r.bind k) (r'.bind k') := by
  cases h with
  | ok h1 h2 h3 h4 => subst h3 h4; exact hf _ _ _ _ h1 h2
  | err h => exact .err h
  | panic => exact .panic
  | oof => exact .oof

theorem PairState.fork {s s' : PState} (h : PairState St Sp s s') : PairState St Sp s.fork s'.fork := ⟨h.cur, .none⟩

theorem PairState.advance {s s' f f' : PState} (h : PairState St Sp s s') (hf : PairState St Sp f f') (e : f.scope = s.scope) (e' : f'.scope = s'.scope) :
    PairState St Sp (s.advanceTo f) (s'.advanceTo f') := by
  refine ⟨?_, ?_⟩
  · have := hf.cur; rw [e, e'] at this; exact this
  · have h1 := h.unexp
    have h2 := hf.unexp
    simp only [PState.advanceTo]
    generalize s.unexp = x at h1
    generalize s'.unexp = y at h1
    cases h1 with
    | none => exact h2
    | some h => exact .some h

theorem PairState.step {s s' : PState} {a b : List TT} (h : PairState St Sp s s') (hc : St a s.scope b s'.scope) :
    PairState St Sp { s with cur := a } { s' with cur := b } := ⟨hc, h.unexp⟩

variable (cp : Couples St Sp)
include cp

theorem pair_empty {s s' : PState} (h : PairState St Sp s s') : s.isEmpty = s'.isEmpty := by
  have := cp.head h.cur
  unfold PState.isEmpty
  generalize s.cur = a at this
  generalize s'.cur = b at this
  cases this <;> rfl

theorem pair_error {s s' : PState} (h : PairState St Sp s s') (m : Text) : PairErr Sp (s.error m) (s'.error m) := by
  have hh := cp.head h.cur
  clear h
  obtain ⟨cur, sc, u⟩ := s
  obtain ⟨cur', sc', u'⟩ := s'
  simp only [PState.error] at hh ⊢
  cases hh with
  | stop h => exact ⟨h, rfl⟩
  | ident h _ => exact ⟨h, rfl⟩
  | punct h _ => exact ⟨h, rfl⟩
  | lit h _ => exact ⟨h, rfl⟩
  | group _ h _ _ _ => exact ⟨h, rfl⟩

theorem pair_headSpan {s s' : PState} (h : PairState St Sp s s') : Sp s.headSpan s'.headSpan := by
  have hh := cp.head h.cur
  clear h
  obtain ⟨cur, sc, u⟩ := s
  obtain ⟨cur', sc', u'⟩ := s'
  simp only [PState.headSpan] at hh ⊢
  cases hh with
  | stop h => exact h
  | ident h _ => exact h
  | punct h _ => exact h
  | lit h _ => exact h
  | group _ h _ _ _ => exact h

/-- What follows in two related positions. -/
inductive PairNext (St : List TT → Span → List TT → Span → Prop) (Sp : Span → Span → Prop) (sc sc' : Span) : Option (TT × List TT) → Option (TT × List TT) → Prop
  | none : PairNext St Sp sc sc' .none .none
  | ident {x sp sp' a b} : Sp sp sp' → St a sc b sc' → PairNext St Sp sc sc' (.some (.ident x sp, a)) (.some (.ident x sp', b))
  | punct {c spc sp sp' a b} : Sp sp sp' → St a sc b sc' → PairNext St Sp sc sc' (.some (.punct c spc sp, a)) (.some (.punct c spc sp', b))
  | lit {r sp sp' a b} : Sp sp sp' → St a sc b sc' → PairNext St Sp sc sc' (.some (.lit r sp, a)) (.some (.lit r sp', b))
  | group {d i j sp sp' a b} : Sp sp sp' → St i sp.closeOf j sp'.closeOf → St a sc b sc' →
      PairNext St Sp sc sc' (.some (.group d i sp, a)) (.some (.group d j sp', b))

theorem pair_next {a b : List TT} {sc sc' : Span} (h : St a sc b sc') : PairNext St Sp sc sc' (uncons a) (uncons b) := by
  cases cp.head h with
  | stop _ => exact .none
  | ident h5 h6 => simp only [uncons, unconsT]; exact .ident h5 h6
  | punct h5 h6 => simp only [uncons, unconsT]; exact .punct h5 h6
  | lit h5 h6 => simp only [uncons, unconsT]; exact .lit h5 h6
  | @group d _ _ _ _ _ _ _ _ hd _ h2 h3 h4 =>
    cases d with
    | none => exact absurd rfl hd
    | _ => simp only [uncons, unconsT]; exact .group h2 h3 h4

/-! ### leaves -/

/-- Relation for located values: the values are the same, the locations are related. -/
abbrev OnBoth {α : Type} (Sp : Span → Span → Prop) (x y : α × Span) : Prop := x.1 = y.1 ∧ Sp x.2 y.2

/-- Any two values. -/
abbrev OnNone {α : Type} (_ _ : α) : Prop := True

theorem anyIdent_paired : Paired St Sp (OnBoth Sp) parseAnyIdent := by
  intro s s' h
  unfold parseAnyIdent
  have hu := pair_next cp h.cur
  have he := pair_error cp h
  generalize uncons s.cur = a at hu
  generalize uncons s'.cur = b at hu
  cases hu with
  | ident h0 h1 => exact .ok ⟨rfl, h0⟩ (h.step h1) rfl rfl
  | _ => exact .err (he _)

theorem pair_uncons {a b c d : List TT} {sc sc' : Span} {t u : TT} (h : St a sc b sc') (ha : uncons a = some (t, c)) (hb : uncons b = some (u, d)) :
    a = t :: c ∧ b = u :: d := by
  cases cp.head h with
  | stop _ => simp [uncons] at ha
  | ident _ _ => simp [uncons, unconsT] at ha hb; simp [ha, hb]
  | punct _ _ => simp [uncons, unconsT] at ha hb; simp [ha, hb]
  | lit _ _ => simp [uncons, unconsT] at ha hb; simp [ha, hb]
  | @group d _ _ _ _ _ _ _ _ hd _ _ _ _ =>
    cases d with
    | none => exact absurd rfl hd
    | _ => simp [uncons, unconsT] at ha hb; simp [ha, hb]

theorem pair_number {a b c d c2 d2 : List TT} {sc sc' sp sp' sp2 sp2' : Span} {spc spc' : Spacing} {r r' : Text} (h : St a sc b sc')
    (ha : uncons a = some (.punct '-' spc sp, c)) (hb : uncons b = some (.punct '-' spc' sp', d)) (h1 : St c sc d sc')
    (ha2 : uncons c = some (.lit r sp2, c2)) (hb2 : uncons d = some (.lit r' sp2', d2)) : Sp (sp.join sp2) (sp'.join sp2') := by
  obtain ⟨e1, e2⟩ := pair_uncons cp h ha hb
  obtain ⟨e3, e4⟩ := pair_uncons cp h1 ha2 hb2
  subst e3 e4
  subst e1 e2
  exact cp.number h

theorem synLit_paired : Paired St Sp (OnBoth Sp) synLitParse := by
  intro s s' h
  unfold synLitParse
  have he := pair_error cp h "expected literal".toList
  have hu := pair_next cp h.cur
  generalize ha : uncons s.cur = oa at hu
  generalize hb : uncons s'.cur = ob at hu
  cases hu with
  | none => exact .err he
  | group _ _ _ => exact .err he
  | lit h0 h1 =>
    rename_i r _ _ _ _
    simp only []
    cases readLit r with
    | none => exact .panic
    | some l => exact .ok ⟨rfl, h0⟩ (h.step h1) rfl rfl
  | ident h0 h1 =>
    rename_i x _ _ _ _
    simp only []
    by_cases hx : x = "true".toList
    · rw [if_pos hx, if_pos hx]; exact .ok ⟨rfl, h0⟩ (h.step h1) rfl rfl
    · rw [if_neg hx, if_neg hx]
      by_cases hy : x = "false".toList
      · rw [if_pos hy, if_pos hy]; exact .ok ⟨rfl, h0⟩ (h.step h1) rfl rfl
      · rw [if_neg hy, if_neg hy]; exact .err he
  | @punct c spc sp sp' a b h0 h1 =>
    by_cases hc : c = '-'
    · subst hc
      simp only []
      have hu2 := pair_next cp h1
      generalize ha2 : uncons a = oa2 at hu2
      generalize hb2 : uncons b = ob2 at hu2
      cases hu2 with
      | @lit r sp2 sp2' a3 b3 h2 h3 =>
        simp only []
        have hj : Sp (sp.join sp2) (sp'.join sp2') := pair_number cp h.cur ha hb h1 ha2 hb2
        cases readIntDigits ('-' :: r) with
        | some d => exact .ok ⟨rfl, hj⟩ (h.step h3) rfl rfl
        | none =>
          simp only []
          cases readFloatDigits ('-' :: r) with
          | some d => exact .ok ⟨rfl, hj⟩ (h.step h3) rfl rfl
          | none => exact .err he
      | _ => exact .err he
    · have e1 := synLit_punct ha hc
      have e2 := synLit_punct hb hc
      unfold synLitParse at e1 e2
      rw [ha] at e1
      rw [hb] at e2
      rw [e1, e2]
      exact .err he

theorem synKind_paired {α : Type} (m : Text) (pick : SynTok → Option α) : Paired St Sp (OnBoth Sp) (synKindParse m pick) := by
  intro s s' h
  unfold synKindParse
  have he := pair_error cp h m
  have hs := synLit_paired cp s s' h
  generalize synLitParse s = a at hs
  generalize synLitParse s' = b at hs
  cases hs with
  | @ok a b t t' h1 h2 h3 h4 =>
    obtain ⟨l, sp⟩ := a
    obtain ⟨l', sp'⟩ := b
    obtain ⟨e, h1⟩ := h1
    dsimp only at e h1
    subst e
    simp only []
    cases pick l with
    | none => exact .err he
    | some a => exact .ok ⟨rfl, h1⟩ h2 h3 h4
  | err _ => exact .err he
  | panic => exact .panic
  | oof => exact .oof

omit cp in
/-- A conversion that blames the whole literal. -/
def Blaming {α β : Type} (f : α → Span → Except Err β) : Prop :=
  ∀ a, (∃ b, ∀ sp, f a sp = .ok b) ∨ (∃ m, ∀ sp, f a sp = .error ⟨sp, m⟩)

omit cp in
theorem andThen_paired {α β : Type} {sc sc' : Span} {r r' : Res (α × Span)} {f : α → Span → Except Err β} (h : PairRes St Sp (OnBoth Sp) sc sc' r r')
    (hf : Blaming f) : PairRes St Sp (OnBoth Sp) sc sc' (r.andThen f) (r'.andThen f) := by
  refine h.bind ?_
  rintro ⟨a, sp⟩ ⟨b, sp'⟩ s s' ⟨e, h1⟩ h2
  dsimp only at e h1
  subst e
  simp only []
  rcases hf a with ⟨b, h3⟩ | ⟨m, h3⟩
  · rw [h3, h3]; exact .ok ⟨rfl, h1⟩ h2 rfl rfl
  · rw [h3, h3]; exact .err ⟨h1, rfl⟩

omit cp in
theorem litIntOf_blaming [Ext] : Blaming litIntOf := by
  intro d; unfold litIntOf; cases parseI64 d with
  | ok v => exact .inl ⟨v, fun _ => rfl⟩
  | error m => exact .inr ⟨m, fun _ => rfl⟩

omit cp in
theorem litUintOf_blaming [Ext] : Blaming litUintOf := by
  intro d; unfold litUintOf; cases parseU64 d with
  | ok v => exact .inl ⟨v.toNat, fun _ => rfl⟩
  | error m => exact .inr ⟨m, fun _ => rfl⟩

omit cp in
theorem litFloatOf_blaming [Ext] : Blaming litFloatOf := by
  intro d; unfold litFloatOf; cases Ext.floatOf d with
  | some v => exact .inl ⟨v, fun _ => rfl⟩
  | none => exact .inr ⟨_, fun _ => rfl⟩

omit cp in
theorem Blaming.map {α β γ : Type} {f : α → Span → Except Err β} (hf : Blaming f) (g : β → γ) (a : α) :
    (∃ b, ∀ sp, (f a sp).map g = .ok b) ∨ (∃ m, ∀ sp, (f a sp).map g = .error ⟨sp, m⟩) := by
  rcases hf a with ⟨b, h⟩ | ⟨m, h⟩
  · exact .inl ⟨g b, fun sp => by rw [h]; rfl⟩
  · exact .inr ⟨m, fun sp => by rw [h]; rfl⟩

omit cp in
theorem litTryFrom_blaming [Ext] : Blaming litTryFrom := by
  intro l
  unfold litTryFrom
  cases l with
  | bool b => exact .inl ⟨_, fun _ => rfl⟩
  | lit l =>
    cases l with
    | int d =>
      simp only []
      split
      · exact litIntOf_blaming.map _ _
      · exact litUintOf_blaming.map _ _
    | float d => exact litFloatOf_blaming.map _ _
    | _ => first | exact .inl ⟨_, fun _ => rfl⟩ | exact .inr ⟨_, fun _ => rfl⟩

theorem litKind_paired [Ext] (k : LitKind) : Paired St Sp OnNone (litKindParse k) := by
  intro s s' h
  cases k with
  | bool => exact (synKind_paired cp _ _ s s' h).map (fun _ _ _ => trivial)
  | byte => exact (synKind_paired cp _ _ s s' h).map (fun _ _ _ => trivial)
  | int => exact (andThen_paired (synKind_paired cp _ _ s s' h) litIntOf_blaming).map (fun _ _ _ => trivial)
  | uint => exact (andThen_paired (synKind_paired cp _ _ s s' h) litUintOf_blaming).map (fun _ _ _ => trivial)
  | float => exact (andThen_paired (synKind_paired cp _ _ s s' h) litFloatOf_blaming).map (fun _ _ _ => trivial)
  | char => exact (synKind_paired cp _ _ s s' h).map (fun _ _ _ => trivial)
  | str => exact (synKind_paired cp _ _ s s' h).map (fun _ _ _ => trivial)
  | byteStr => exact (synKind_paired cp _ _ s s' h).map (fun _ _ _ => trivial)
  | any =>
    exact (andThen_paired (synLit_paired cp s s' h) litTryFrom_blaming).mono (fun _ _ _ => trivial)

theorem punct_paired : ∀ (tok : Text) {a b : List TT} {sc sc' : Span}, St a sc b sc' →
    (punctLoop tok a = none ∧ punctLoop tok b = none) ∨
    ∃ sps sps' c d, punctLoop tok a = some (sps, c) ∧ punctLoop tok b = some (sps', d) ∧ St c sc d sc'
  | [], a, b, _, _, h => .inr ⟨[], [], a, b, rfl, rfl, h⟩
  | [c], a, b, _, _, h => by
    simp only [punctLoop]
    have hu := pair_next cp h
    generalize uncons a = a at hu
    generalize uncons b = b at hu
    cases hu with
    | punct _ h1 =>
      simp only []
      split
      · exact .inr ⟨_, _, _, _, rfl, rfl, h1⟩
      · exact .inl ⟨rfl, rfl⟩
    | _ => exact .inl ⟨rfl, rfl⟩
  | c :: c2 :: cs, a, b, _, _, h => by
    simp only [punctLoop]
    have hu := pair_next cp h
    generalize uncons a = a at hu
    generalize uncons b = b at hu
    cases hu with
    | punct _ h1 =>
      simp only []
      split
      · rcases punct_paired (c2 :: cs) h1 with ⟨h2, h3⟩ | ⟨sps, sps', x, y, h2, h3, h5⟩
        · rw [h2, h3]; exact .inl ⟨rfl, rfl⟩
        · rw [h2, h3]; exact .inr ⟨_, _, _, _, rfl, rfl, h5⟩
      · exact .inl ⟨rfl, rfl⟩
    | _ => exact .inl ⟨rfl, rfl⟩

theorem punctErrSpan_paired {s s' : PState} (h : PairState St Sp s s') : Sp (punctErrSpan s) (punctErrSpan s') := by
  unfold punctErrSpan
  have hh := pair_headSpan cp h
  have hu := pair_next cp h.cur
  generalize uncons s.cur = a at hu
  generalize uncons s'.cur = b at hu
  cases hu with
  | punct h0 _ =>
    simp only []
    split
    · exact h0
    · exact hh
  | _ => exact hh

theorem leaf_paired [Ext] (l : Leaf) : Paired St Sp OnNone (leafParse l) := by
  intro s s' h
  have he : s.isEmpty = s'.isEmpty := pair_empty cp h
  have her := fun m => pair_error cp h m
  have hsp := pair_headSpan cp h
  cases l with
  | empty => exact .ok trivial h rfl rfl
  | eof =>
    simp only [leafParse, eofParse, he]
    split
    · exact .ok trivial h rfl rfl
    · exact .err (her _)
  | notEof =>
    simp only [leafParse, notEofParse, he]
    split
    · exact .err (her _)
    · exact .ok trivial h rfl rfl
  | customIdent kws =>
    refine PairRes.map (R := OnNone) ?_ (fun a b hab => trivial)
    refine (anyIdent_paired cp s s' h).bind ?_
    rintro ⟨x, sp⟩ ⟨y, sp'⟩ t t' ⟨h1, h3⟩ h2
    cases (show x = y from h1)
    simp only [customIdentTryFrom]
    by_cases hk : (kws.any fun kw => decide (x = kw)) = true
    · simp only [hk, if_true]; exact .err ⟨h3, rfl⟩
    · simp only [hk]; exact .ok trivial h2 rfl rfl
  | rustIdent =>
    refine PairRes.map (R := OnNone) ?_ (fun a b hab => trivial)
    unfold parseRustIdent
    have hu := pair_next cp h.cur
    generalize uncons s.cur = a at hu
    generalize uncons s'.cur = b at hu
    cases hu with
    | ident h0 h1 =>
      simp only []
      split
      · exact .err (her _)
      · exact .ok trivial (h.step h1) rfl rfl
    | _ => exact .err (her _)
  | keyword kw =>
    refine PairRes.map (R := OnNone) ?_ (fun a b _ => trivial)
    refine (anyIdent_paired cp s s' h).bind ?_
    rintro ⟨x, sp⟩ ⟨y, sp'⟩ t t' ⟨h1, h3⟩ h2
    cases (show x = y from h1)
    simp only []
    split
    · exact .ok trivial h2 rfl rfl
    · exact .err ⟨h3, rfl⟩
  | kwToken kw =>
    refine PairRes.map (R := OnNone) ?_ (fun a b _ => trivial)
    unfold parseKwToken
    have hu := pair_next cp h.cur
    generalize uncons s.cur = a at hu
    generalize uncons s'.cur = b at hu
    cases hu with
    | ident h0 h1 =>
      simp only []
      split
      · exact .ok trivial (h.step h1) rfl rfl
      · exact .err (her _)
    | _ => exact .err (her _)
  | punct tok =>
    refine PairRes.map (R := OnNone) ?_ (fun a b h => trivial)
    unfold parsePunct
    rcases punct_paired cp tok h.cur with ⟨h1, h2⟩ | ⟨sps, sps', c, d, h1, h2, h4⟩
    · rw [h1, h2]; exact .err ⟨punctErrSpan_paired cp h, rfl⟩
    · rw [h1, h2]; exact .ok trivial (h.step h4) rfl rfl
  | lit k => exact (litKind_paired cp k s s' h).map (fun _ _ _ => trivial)

theorem unexpected_paired {a b : List TT} {sc sc' : Span} (h : St a sc b sc') : PairCell Sp (unexpectedSpan a) (unexpectedSpan b) := by
  unfold unexpectedSpan
  have hu := pair_next cp h
  generalize uncons a = a at hu
  generalize uncons b = b at hu
  cases hu with
  | none => exact .none
  | ident h0 _ => exact .some h0
  | punct h0 _ => exact .some h0
  | lit h0 _ => exact .some h0
  | group h0 _ _ => exact .some h0

theorem drop_paired {s s' : PState} (h : PairState St Sp s s') : PairCell Sp s.dropUnexp s'.dropUnexp := by
  have h1 := h.unexp
  have h2 := unexpected_paired cp h.cur
  unfold PState.dropUnexp
  generalize s.unexp = x at h1
  generalize s'.unexp = y at h1
  cases h1 with
  | none => exact h2
  | some h => exact .some h

theorem delimited_paired {α : Type} (d : Delim) {p : Parser α} (hp : Paired St Sp OnNone p) : Paired St Sp OnNone (delimited d p) := by
  intro s s' h
  unfold delimited
  have her := fun m => pair_error cp h m
  have hu := pair_next cp h.cur
  generalize uncons s.cur = a at hu
  generalize uncons s'.cur = b at hu
  cases hu with
  | @group d' i j sp sp' a b h0 h1 h2 =>
    simp only []
    split
    · have := hp { cur := i, scope := sp.closeOf, unexp := s.unexp } { cur := j, scope := sp'.closeOf, unexp := s'.unexp } ⟨h1, h.unexp⟩
      generalize p { cur := i, scope := sp.closeOf, unexp := s.unexp } = r at this
      generalize p { cur := j, scope := sp'.closeOf, unexp := s'.unexp } = r' at this
      cases this with
      | ok _ ht _ _ => exact .ok trivial ⟨h2, drop_paired cp ht⟩ rfl rfl
      | err h => exact .err h
      | panic => exact .panic
      | oof => exact .oof
    · exact .err (her _)
  | _ => exact .err (her _)

theorem termN_paired [Ext] {pa pb : Parser (List Val)} (ha : Paired St Sp OnNone pa) (hb : Paired St Sp OnNone pb) : ∀ k, Paired St Sp OnNone (termN pa pb k)
  | 0, _, _, _ => .oof
  | k + 1, s, s', h => by
    have he : s.isEmpty = s'.isEmpty := pair_empty cp h
    simp only [termN, he]
    split
    · exact .ok trivial h rfl rfl
    · refine (ha _ _ h).bind fun vs ws s1 s1' hv h1 => ?_
      have he : s1.isEmpty = s1'.isEmpty := pair_empty cp h1
      simp only [he]
      split
      · exact .ok trivial h1 rfl rfl
      · exact (hb _ _ h1).bind fun us us' s2 s2' hu h2 => (termN_paired ha hb k _ _ h2).map fun a b hab => trivial

theorem starN_paired [Ext] {pa pb : Parser (List Val)} (ha : Paired St Sp OnNone pa) (hb : Paired St Sp OnNone pb) : ∀ k, Paired St Sp OnNone (starN pa pb k)
  | 0, _, _, _ => .oof
  | k + 1, s, s', h => by
    simp only [starN]
    have h1 := ha _ _ h.fork
    generalize pa s.fork = r at h1
    generalize pa s'.fork = r' at h1
    cases h1 with
    | ok hv hf e e' =>
      exact (hb _ _ (h.advance hf e e')).bind fun us us' s2 s2' hu h2 => (starN_paired ha hb k _ _ h2).map fun a b hab => trivial
    | err => exact .ok trivial h rfl rfl
    | panic => exact .panic
    | oof => exact .oof

theorem exec_paired [Ext] {P : Ty → Parser Val} (k : Nat) (e : E) (hP : ∀ t, Paired St Sp OnNone (P t)) : Paired St Sp OnNone (exec P k e) := by
  induction e with
  | ret => intro s s' h; exact .ok trivial h rfl rfl
  | leaf l => intro s s' h; exact (leaf_paired cp l s s' h).map fun a b hab => trivial
  | ty t => intro s s' h; exact (hP t s s' h).map fun a b hab => trivial
  | delim d t => intro s s' h; exact (delimited_paired cp d (hP t) s s' h).map fun a b hab => trivial
  | fail msg => intro s s' h; exact .err (pair_error cp h msg)
  | seq a b iha ihb =>
    intro s s' h
    exact (iha s s' h).bind fun vs ws s1 s1' hv h1 => (ihb _ _ h1).map fun a b hab => trivial
  | label en c f a iha =>
    intro s s' h
    have h1 := iha s s' h
    simp only [exec]
    generalize exec P k a s = r at h1
    generalize exec P k a s' = r' at h1
    cases h1 with
    | ok hv hf e e' => exact .ok trivial hf e e'
    | err he => exact .err ⟨he.span, by simp only [chainError, he.msg]⟩
    | panic => exact .panic
    | oof => exact .oof
  | attempt a iha =>
    intro s s' h
    have h1 := iha _ _ h.fork
    simp only [exec]
    generalize exec P k a s.fork = r at h1
    generalize exec P k a s'.fork = r' at h1
    cases h1 with
    | ok hv hf e e' => exact .ok trivial (h.advance hf e e') rfl rfl
    | err he => exact .err he
    | panic => exact .panic
    | oof => exact .oof
  | opt a b iha ihb =>
    intro s s' h
    have h1 := iha _ _ h.fork
    simp only [exec]
    generalize exec P k a s.fork = r at h1
    generalize exec P k a s'.fork = r' at h1
    cases h1 with
    | ok hv hf e e' => exact (ihb _ _ (h.advance hf e e')).map fun a b hab => trivial
    | err _ => exact .ok trivial h rfl rfl
    | panic => exact .panic
    | oof => exact .oof
  | alt a b iha ihb =>
    intro s s' h
    have h1 := iha _ _ h
    simp only [exec]
    generalize exec P k a s = r at h1
    generalize exec P k a s' = r' at h1
    cases h1 with
    | ok hv hf e e' => exact .ok trivial hf e e'
    | err he1 =>
      simp only []
      have h2 := ihb _ _ h.fork
      generalize exec P k b s.fork = r at h2
      generalize exec P k b s'.fork = r' at h2
      cases h2 with
      | ok hv hf e e' => exact .ok trivial (h.advance hf e e') rfl rfl
      | err he2 =>
        refine .err ?_
        unfold maxByEnd
        rw [cp.order he2.span he1.span]
        split
        · exact he1
        · exact he2
      | panic => exact .panic
      | oof => exact .oof
    | panic => exact .panic
    | oof => exact .oof
  | term a b iha ihb => exact termN_paired cp iha ihb k
  | star a b iha ihb => exact starN_paired cp iha ihb k
  | build bu a iha => intro s s' h; exact (iha s s' h).map fun a b hab => trivial

/-- Parsers report the same errors on related states. -/
theorem parse_paired [Ext] (env : Env) : ∀ (n : Nat) (t : Ty), Paired St Sp OnNone (parse env n t)
  | 0, _, _, _, _ => .oof
  | n + 1, t, s, s', h => by
    have h1 := exec_paired cp n (body env t) (fun u => parse_paired env n u) s s' h
    rw [← parse_core, ← parse_core] at h1
    cases h2 : parse env (n + 1) t s <;> cases h3 : parse env (n + 1) t s' <;> rw [h2, h3] at h1 <;> try (cases h1; done)
    · cases h1 with
      | ok hv hs e e' => exact .ok trivial hs e e'
    · cases h1 with | err h => exact .err h
    · exact .panic
    · exact .oof

/-- `parse2` reports the same error. -/
theorem parse2_paired [Ext] {env : Env} {t : Ty} {ts ts' : List TT} {e : Err} (h0 : St ts .callSite ts' .callSite) (h : Rejects env t ts e) :
    ∃ e', Rejects env t ts' e' ∧ PairErr Sp e e' := by
  obtain ⟨n, h⟩ := h
  have h1 := parse_paired cp env n t ⟨ts, .callSite, none⟩ ⟨ts', .callSite, none⟩ ⟨h0, .none⟩
  unfold parse2 at h
  generalize hr : parse env n t ⟨ts, .callSite, none⟩ = r at h h1
  generalize hr' : parse env n t ⟨ts', .callSite, none⟩ = r' at h1
  cases h1 with
  | @ok a b s s' _ hs e1 e2 =>
    have h2 := hs.unexp
    have h3 := unexpected_paired cp hs.cur
    simp only [] at h
    suffices ∃ e', parse2 (parse env n t) ts' = .err e' ∧ PairErr Sp e e' from this.elim fun e' h => ⟨e', ⟨n, h.1⟩, h.2⟩
    unfold parse2
    rw [hr']
    simp only []
    generalize s.unexp = x at h h2
    generalize s'.unexp = y at h2
    cases h2 with
    | some h4 => cases h; exact ⟨_, rfl, h4, rfl⟩
    | none =>
      simp only [] at h ⊢
      generalize unexpectedSpan s.cur = x at h h3
      generalize unexpectedSpan s'.cur = y at h3
      cases h3 with
      | some h4 => cases h; exact ⟨_, rfl, h4, rfl⟩
      | none => cases h
  | @err e1 e2 he =>
    cases h
    exact ⟨e2, ⟨n, by unfold parse2; rw [hr']⟩, he⟩
  | panic => cases h
  | oof => cases h

end

end Parsel
