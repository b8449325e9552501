import Verif.Spec.Exact
import Verif.Proofs.Viable
import Verif.Proofs.ViableKit
import Verif.Proofs.Furthest
import Verif.Proofs.LinearCheck

/-! Streams that agree up to a token; what the parser does on them. -/

namespace Parsel
open Spec

section

theorem Spec.Ahead.symm {k : Nat} {a b : List TT} (h : Ahead k a b) : Ahead k b a := by
  induction h with
  | enough => exact .enough
  | stop => exact .stop
  | punct _ ih => exact .punct ih
  | ident => exact .ident
  | lit => exact .lit
  | group => exact .group

theorem Spec.Ahead.less {k : Nat} {a b : List TT} (h : Ahead (k + 1) a b) : Ahead k a b := by
  induction k generalizing a b with
  | zero => exact .enough
  | succ k ih =>
    cases h with
    | stop => exact .stop
    | punct h => exact .punct (ih h)
    | ident => exact .ident
    | lit => exact .lit
    | group => exact .group

theorem Spec.Ahead.cons {k : Nat} {a b : List TT} (h : Ahead k a b) (t : TT) : Ahead k (t :: a) (t :: b) := by
  cases k with
  | zero => exact .enough
  | succ k =>
    cases t with
    | punct => exact .punct h.less
    | ident => exact .ident
    | lit => exact .lit
    | group => exact .group

theorem Spec.Ahead.append {k : Nat} {a b : List TT} (h : Ahead k a b) : ∀ x : List TT, Ahead k (x ++ a) (x ++ b)
  | [] => h
  | t :: x => (h.append x).cons t

theorem ahead_refl (k : Nat) : ∀ a : List TT, Ahead k a a
  | [] => .stop
  | t :: a => (ahead_refl k a).cons t

theorem Spec.Ahead.nil {k : Nat} {b : List TT} (h : Ahead (k + 1) [] b) : b = [] := by cases h; rfl

theorem Spec.Agree.ahead {k n : Nat} {a b : List TT} (h : Agree k n a b) : Ahead k a b := by
  induction h with
  | here h => exact h
  | over _ ih => exact ih.cons _
  | into _ _ => cases k <;> constructor

theorem countT_pos (t : TT) : 0 < countT t := by cases t <;> simp [countT]

theorem agree_refl (k : Nat) : ∀ (n : Nat) (a : List TT), n ≤ count a → Agree k n a a
  | 0, a, _ => .here (ahead_refl k a)
  | n + 1, [], h => by simp [count] at h
  | n + 1, t :: a, h => by
    rw [count] at h
    by_cases ht : countT t ≤ n + 1
    · obtain ⟨m, hm⟩ : ∃ m, n + 1 = countT t + m := ⟨n + 1 - countT t, by omega⟩
      rw [hm]
      exact .over (agree_refl k m a (by omega))
    · cases t with
      | group d i sp => rw [countT] at ht; exact .into (agree_refl k n i (by omega))
      | ident => simp [countT] at ht
      | punct => simp [countT] at ht
      | lit => simp [countT] at ht
termination_by n a => n + sizeOf a

theorem Spec.Agree.le {k n : Nat} {a b : List TT} (h : Agree k n a b) : n ≤ count a := by
  induction h with
  | here => exact Nat.zero_le _
  | over _ ih => rw [count]; omega
  | into _ ih => rw [count, countT]; omega

theorem Spec.Agree.mono {k n : Nat} {a b : List TT} (h : Agree k n a b) : ∀ {m}, m ≤ n → Agree k m a b := by
  induction h with
  | here h => intro m hm; rw [Nat.le_zero.mp hm]; exact .here h
  | @over t ts new n h ih =>
    intro m hm
    by_cases ht : countT t ≤ m
    · obtain ⟨i, hi⟩ : ∃ i, m = countT t + i := ⟨m - countT t, by omega⟩
      rw [hi]
      exact .over (ih (by omega))
    · cases m with
      | zero => exact .here (h.ahead.cons t)
      | succ m =>
        cases t with
        | group d i sp => rw [countT] at ht; exact .into (agree_refl k m i (by omega))
        | ident => simp [countT] at ht
        | punct => simp [countT] at ht
        | lit => simp [countT] at ht
  | @into d i j sp ts new n h ih =>
    intro m hm
    cases m with
    | zero => exact .here (Agree.into (sp := sp) (d := d) (ts := ts) (new := new) h).ahead
    | succ m => exact .into (ih (by omega))

theorem Spec.Agree.split {k n : Nat} : ∀ {a r new : List TT}, Agree k (count a + n) (a ++ r) new → ∃ new', new = a ++ new' ∧ Agree k n r new'
  | [], r, new, h => by
    rw [count, Nat.zero_add] at h
    exact ⟨new, rfl, h⟩
  | t :: a, r, new, h => by
    rw [count, List.cons_append, Nat.add_assoc] at h
    generalize hm : countT t + (count a + n) = m at h
    cases h with
    | here _ => have := countT_pos t; omega
    | over h =>
      have : _ = count a + n := Nat.add_left_cancel hm.symm
      rw [this] at h
      obtain ⟨new', rfl, h'⟩ := Agree.split h
      exact ⟨new', rfl, h'⟩
    | into h =>
      have := h.le
      rw [countT] at hm
      omega

theorem Spec.Agree.inside {k n : Nat} {d : Delim} {i ts new : List TT} {sp : Span} (h : Agree k (n + 1) (.group d i sp :: ts) new) (hn : n ≤ count i) :
    ∃ j more, new = .group d j sp :: more ∧ Agree k n i j := by
  generalize hm : n + 1 = m at h
  cases h with
  | here _ => omega
  | over h => rw [countT] at hm; omega
  | into h => obtain rfl := Nat.succ.inj hm; exact ⟨_, _, rfl, h⟩

theorem passed_behind {ts cur : List TT} {sc sc' : Span} {n : Nat} (h : Passed ts sc n cur sc') : ∀ a : List TT, Passed (a ++ ts) sc (count a + n) cur sc'
  | [] => by rw [count, Nat.zero_add]; exact h
  | t :: a => by rw [count, Nat.add_assoc]; exact .over (passed_behind h a)

theorem count_append : ∀ a b : List TT, count (a ++ b) = count a + count b
  | [], b => by simp [count]
  | t :: a, b => by simp [count, count_append a b, Nat.add_assoc]

end

/-! ### leaves -/

variable {k : Nat} {ts new rest : List TT}

theorem ahead_ident (hv : Visible ts) (h : Ahead (k + 1) ts new) {x : Text} {sp : Span} (hn : Next ts (.ident x sp) rest) : ∃ more, Next new (.ident x sp) more := by
  have e := next_visible hv hn
  subst e
  cases h
  exact ⟨_, .here (by simp)⟩

theorem ahead_lit (hv : Visible ts) (h : Ahead (k + 1) ts new) {x : Text} {sp : Span} (hn : Next ts (.lit x sp) rest) : ∃ more, Next new (.lit x sp) more := by
  have e := next_visible hv hn
  subst e
  cases h
  exact ⟨_, .here (by simp)⟩

theorem ahead_punct (hv : Visible ts) (h : Ahead (k + 1) ts new) {c : Char} {spc : Spacing} {sp : Span} (hn : Next ts (.punct c spc sp) rest) :
    ∃ more, Next new (.punct c spc sp) more ∧ Ahead k rest more ∧ Visible rest := by
  have e := next_visible hv hn
  subst e
  cases h with
  | punct h => exact ⟨_, .here (by simp), h, hv.tail⟩

theorem ahead_group (hv : Visible ts) (h : Ahead (k + 1) ts new) {d : Delim} {i : List TT} {sp : Span} (hn : Next ts (.group d i sp) rest) :
    ∃ j more, Next new (.group d j sp) more := by
  have e := next_visible hv hn
  subst e
  cases h with
  | group => exact ⟨_, _, .here (fun inner s e => by cases e; exact hv _ _ .head)⟩

variable [Ext]

omit [Ext] in
theorem intAt_ahead (hv : Visible ts) (h : Ahead (k + 2) ts new) {neg : Bool} {n : Nat} {sp : Span} (hi : IntAt ts neg n sp rest) : ∃ more, IntAt new neg n sp more := by
  cases hi with
  | plain hn hl => obtain ⟨m, hm⟩ := ahead_lit hv h hn; exact ⟨m, .plain hm hl⟩
  | minus hn hn2 hl =>
    obtain ⟨m, hm, ha, hv'⟩ := ahead_punct hv h hn
    obtain ⟨m', hm'⟩ := ahead_lit hv' ha hn2
    exact ⟨m', .minus hm hm' hl⟩
  | inside hn hl => obtain ⟨m, hm⟩ := ahead_lit hv h hn; exact ⟨m, .inside hm hl⟩

theorem floatAt_ahead (hv : Visible ts) (h : Ahead (k + 2) ts new) {d : Text} {sp : Span} (hi : FloatAt ts d sp rest) : ∃ more, FloatAt new d sp more := by
  cases hi with
  | plain hn hl => obtain ⟨m, hm⟩ := ahead_lit hv h hn; exact ⟨m, .plain hm hl⟩
  | minus hn hn2 hl h2 =>
    obtain ⟨m, hm, ha, hv'⟩ := ahead_punct hv h hn
    obtain ⟨m', hm'⟩ := ahead_lit hv' ha hn2
    exact ⟨m', .minus hm hm' hl h2⟩

theorem litAt_ahead (hv : Visible ts) (h : Ahead (k + 2) ts new) {kind : LitKind} {v : LitVal} {sp : Span} (hl : LitAt kind ts v sp rest) : ∃ more, LitAt kind new v sp more := by
  cases hl with
  | bool hk hn => obtain ⟨m, hm⟩ := ahead_ident hv h hn; exact ⟨m, .bool hk hm⟩
  | byte hk hn hr => obtain ⟨m, hm⟩ := ahead_lit hv h hn; exact ⟨m, .byte hk hm hr⟩
  | int hi hr => obtain ⟨m, hm⟩ := intAt_ahead hv h hi; exact ⟨m, .int hm hr⟩
  | uint hk hi hr => obtain ⟨m, hm⟩ := intAt_ahead hv h hi; exact ⟨m, .uint hk hm hr⟩
  | negative hi hr => obtain ⟨m, hm⟩ := intAt_ahead hv h hi; exact ⟨m, .negative hm hr⟩
  | float hk hi hr => obtain ⟨m, hm⟩ := floatAt_ahead hv h hi; exact ⟨m, .float hk hm hr⟩
  | char hk hn hr => obtain ⟨m, hm⟩ := ahead_lit hv h hn; exact ⟨m, .char hk hm hr⟩
  | str hk hn hr => obtain ⟨m, hm⟩ := ahead_lit hv h hn; exact ⟨m, .str hk hm hr⟩
  | byteStr hk hn hr => obtain ⟨m, hm⟩ := ahead_lit hv h hn; exact ⟨m, .byteStr hk hm hr⟩

omit [Ext] in
theorem punctAt_ahead {tok : Text} {sps : List Span} (hp : PunctAt tok ts sps rest) : ∀ {k : Nat} {new : List TT}, Visible ts → Ahead k ts new → tok.length ≤ k →
    ∃ more, PunctAt tok new sps more := by
  induction hp with
  | nil => intro k new _ _ _; exact ⟨new, .nil⟩
  | last hc hn =>
    intro k new hv h hk
    cases k with
    | zero => simp at hk
    | succ k => obtain ⟨m, hm, _, _⟩ := ahead_punct hv h hn; exact ⟨m, .last hc hm⟩
  | more hc ht hn _ ih =>
    intro k new hv h hk
    cases k with
    | zero => simp at hk
    | succ k =>
      obtain ⟨m, hm, ha, hv'⟩ := ahead_punct hv h hn
      obtain ⟨m', hm'⟩ := ih hv' ha (by simpa using hk)
      exact ⟨m', .more hc ht hm hm'⟩

/-- Leaves are decided by what is ahead. -/
theorem leafAt_ahead (hv : Visible ts) (h : Ahead (k + 2) ts new) {l : Leaf} (hb : Brief (k + 2) l) {v : LeafVal} (hl : LeafAt l ts v rest) : ∃ more, LeafAt l new v more := by
  cases hl with
  | empty => exact ⟨new, .empty⟩
  | eof => rw [h.nil]; exact ⟨[], .eof⟩
  | notEof hn => exact ⟨new, .notEof (fun e => by subst e; exact hn h.symm.nil)⟩
  | customIdent hn hx => obtain ⟨m, hm⟩ := ahead_ident hv h hn; exact ⟨m, .customIdent hm hx⟩
  | rustIdent hn hx => obtain ⟨m, hm⟩ := ahead_ident hv h hn; exact ⟨m, .rustIdent hm hx⟩
  | keyword hn => obtain ⟨m, hm⟩ := ahead_ident hv h hn; exact ⟨m, .keyword hm⟩
  | kwToken hn => obtain ⟨m, hm⟩ := ahead_ident hv h hn; exact ⟨m, .kwToken hm⟩
  | punct hp => obtain ⟨m, hm⟩ := punctAt_ahead hp hv h (hb _ rfl); exact ⟨m, .punct hm⟩
  | lit hl => obtain ⟨m, hm⟩ := litAt_ahead hv h hl; exact ⟨m, .lit hm⟩

theorem noLeaf_ahead (hv : Visible ts) (hn : Visible new) (h : Ahead (k + 2) ts new) {l : Leaf} (hb : Brief (k + 2) l) (hl : NoLeaf l ts) : NoLeaf l new := by
  refine ⟨fun v rest hr => ?_, fun ⟨h1, r, sp, rest, h2, h3⟩ => ?_⟩
  · obtain ⟨m, hm⟩ := leafAt_ahead hn h.symm hb hr
    exact hl.1 _ _ hm
  · obtain ⟨m, hm⟩ := ahead_lit hn h.symm h2
    exact hl.2 ⟨h1, r, sp, m, hm, h3⟩

/-! ### single leaves -/

variable {env : Env}

/-- So are choices of leaves. -/
theorem single_ahead (hv : Visible ts) (hn : Visible new) (h : Ahead (k + 2) ts new) {t : Ty} (hs : Single env (k + 2) t) :
    (∀ v rest left, Matches env t ts v rest left → ∃ v' rest' left', Matches env t new v' rest' left') ∧ (NoMatch env t ts → NoMatch env t new) := by
  induction hs with
  | leaf hb =>
    refine ⟨fun v rest left hm => ?_, fun hm => ?_⟩
    · cases hm with
      | leaf hl => obtain ⟨m, hm⟩ := leafAt_ahead hv h hb hl; exact ⟨_, _, _, .leaf hm⟩
      | group hg => cases hg
    · cases hm with
      | leaf hl => exact .leaf (noLeaf_ahead hv hn h hb hl)
      | noGroup hg => cases hg
      | inGroup hg => cases hg
  | boxed _ ih =>
    refine ⟨fun v rest left hm => ?_, fun hm => ?_⟩
    · cases hm with
      | boxed hm => obtain ⟨_, _, _, hm⟩ := ih.1 _ _ _ hm; exact ⟨_, _, _, .boxed hm⟩
      | group hg => cases hg
    · cases hm with
      | boxed hm => exact .boxed (ih.2 hm)
      | noGroup hg => cases hg
      | inGroup hg => cases hg
  | either _ _ ih1 ih2 =>
    refine ⟨fun v rest left hm => ?_, fun hm => ?_⟩
    · cases hm with
      | eitherLeft hm => obtain ⟨_, _, _, hm⟩ := ih1.1 _ _ _ hm; exact ⟨_, _, _, .eitherLeft hm⟩
      | eitherRight hn hm => obtain ⟨_, _, _, hm⟩ := ih2.1 _ _ _ hm; exact ⟨_, _, _, .eitherRight (ih1.2 hn) hm⟩
      | group hg => cases hg
    · cases hm with
      | either h1 h2 => exact .either (ih1.2 h1) (ih2.2 h2)
      | noGroup hg => cases hg
      | inGroup hg => cases hg
  | @struct x fields u hx hf _ ih =>
    refine ⟨fun v rest left hm => ?_, fun hm => ?_⟩
    · cases hm with
      | struct hx' hm =>
        rw [hx] at hx'
        cases hx'
        rw [hf] at hm
        cases hm with
        | cons hm _ =>
          obtain ⟨_, _, _, hm⟩ := ih.1 _ _ _ hm
          exact ⟨_, _, _, .struct hx (by rw [hf]; exact .cons hm .nil)⟩
      | enum hx' => rw [hx] at hx'; cases hx'
      | group hg => cases hg
    · cases hm with
      | struct hx' hm =>
        rw [hx] at hx'
        cases hx'
        rw [hf] at hm
        refine .struct hx ?_
        rw [hf]
        cases hm with
        | here hm => exact .here (ih.2 hm)
        | later _ hm => cases hm
      | enum hx' => rw [hx] at hx'; cases hx'
      | noGroup hg => cases hg
      | inGroup hg => cases hg
  | @enum x vs one hx hf _ ih =>
    have no : ∀ v ∈ vs, NoMatchSeq env (fieldTypes v.fields) ts → NoMatchSeq env (fieldTypes v.fields) new := by
      intro v hv hm
      rw [hf v hv] at hm ⊢
      cases hm with
      | here hm => exact .here ((ih v hv).2 hm)
      | later _ hm => cases hm
    refine ⟨fun v rest left hm => ?_, fun hm => ?_⟩
    · cases hm with
      | struct hx' => rw [hx] at hx'; cases hx'
      | enum hx' hb hm =>
        rw [hx] at hx'
        cases hx'
        rw [hf _ (by simp)] at hm
        cases hm with
        | cons hm _ =>
          obtain ⟨_, _, _, hm⟩ := (ih _ (by simp)).1 _ _ _ hm
          exact ⟨_, _, _, .enum hx (fun u hu => no u (by simp [hu]) (hb u hu)) (by rw [hf _ (by simp)]; exact .cons hm .nil)⟩
      | group hg => cases hg
    · cases hm with
      | struct hx' => rw [hx] at hx'; cases hx'
      | enum hx' hm => rw [hx] at hx'; cases hx'; exact .enum hx fun v hv => no v hv (hm v hv)
      | noGroup hg => cases hg
      | inGroup hg => cases hg

/-- A choice of leaves that is there on one side and not on the other. -/
theorem single_apart (hv : Visible ts) (hn : Visible new) (h : Ahead (k + 2) ts new) {t : Ty} (hs : Single env (k + 2) t) {v : Val} {left : Option Span}
    (hm : Matches env t ts v rest left) (hno : NoMatch env t new) : False := by
  obtain ⟨_, _, _, hm⟩ := (single_ahead hv hn h hs).1 _ _ _ hm
  exact not_both hm hno

end Parsel
