import Verif.Props.Language
import Verif.Props.Linear
import Verif.Props.Equality

/-! C77: the grammars of README.md. -/

namespace Parsel
open Spec

section
variable [Ext]

/-! ### the Boolean language -/

omit [Ext] in
theorem dissolve_front {ts d : List TT} {t : TT} (h : dissolve ts = t :: d) : ∃ t' rest, Next ts t' rest ∧ dissolveT t' = [t] ∧ dissolve rest = d := by
  cases hu : uncons ts with
  | none => rw [(dissolve_eq_nil_iff ts).mpr hu] at h; cases h
  | some x =>
    obtain ⟨t', rest⟩ := x
    have hn := (uncons_iff ts t' rest).mp hu
    obtain ⟨u, hu⟩ := dissolveT_not_none (next_not_none hn)
    rw [dissolve_next hn, hu] at h
    simp only [List.cons_append, List.nil_append, List.cons.injEq] at h
    exact ⟨t', rest, hn, by rw [hu, h.1], h.2⟩

omit [Ext] in
theorem dissolve_ident {ts d : List TT} {x : Text} {sp : Span} (h : dissolve ts = .ident x sp :: d) : ∃ rest, Next ts (.ident x sp) rest ∧ dissolve rest = d := by
  obtain ⟨t', rest, h1, h2, h3⟩ := dissolve_front h
  have := next_not_none h1
  cases t' with
  | ident => simp only [dissolveT, List.cons.injEq, and_true] at h2; rw [h2] at h1; exact ⟨rest, h1, h3⟩
  | group dl i s => cases dl <;> simp_all [dissolveT]
  | _ => simp [dissolveT] at h2

omit [Ext] in
theorem dissolve_punct {ts d : List TT} {c : Char} {spc : Spacing} {sp : Span} (h : dissolve ts = .punct c spc sp :: d) :
    ∃ rest, Next ts (.punct c spc sp) rest ∧ dissolve rest = d := by
  obtain ⟨t', rest, h1, h2, h3⟩ := dissolve_front h
  have := next_not_none h1
  cases t' with
  | punct => simp only [dissolveT, List.cons.injEq, and_true] at h2; rw [h2] at h1; exact ⟨rest, h1, h3⟩
  | group dl i s => cases dl <;> simp_all [dissolveT]
  | _ => simp [dissolveT] at h2

omit [Ext] in
theorem dissolve_paren {ts i d : List TT} {sp : Span} (h : dissolve ts = .group .paren i sp :: d) :
    ∃ inner rest, Next ts (.group .paren inner sp) rest ∧ dissolve inner = i ∧ dissolve rest = d := by
  obtain ⟨t', rest, h1, h2, h3⟩ := dissolve_front h
  have := next_not_none h1
  cases t' with
  | group dl i s =>
    cases dl <;> simp_all [dissolveT]
    obtain ⟨h2, rfl⟩ := h2
    exact ⟨i, rest, h1, h2, h3⟩
  | _ => simp [dissolveT] at h2

/-- The character is not next. -/
def NotNext (c : Char) (d : List TT) : Prop := ∀ spc sp r, d ≠ .punct c spc sp :: r

theorem noOp {c : Char} {ts : List TT} (h : NotNext c (dissolve ts)) {env : Env} : NoMatch env (.leaf (.punct [c])) ts := by
  refine .leaf ⟨fun v rest hl => ?_, fun ⟨⟨k, hk⟩, _⟩ => by cases hk⟩
  cases hl with
  | punct hp =>
    cases hp with
    | last _ hn =>
      have := dissolve_next hn
      exact h _ _ _ this
    | more _ hne => exact hne rfl

theorem noOp_at {c : Char} {ts rest : List TT} {t : TT} (hn : Next ts t rest) (h : ∀ spc sp, t ≠ .punct c spc sp) {env : Env} :
    NoMatch env (.leaf (.punct [c])) ts := by
  refine .leaf ⟨fun v rest' hl => ?_, fun ⟨⟨k, hk⟩, _⟩ => by cases hk⟩
  cases hl with
  | punct hp =>
    cases hp with
    | last _ hn' => exact h _ _ ((next_det hn hn').1)
    | more _ hne => exact hne rfl

theorem noBool_at {ts rest : List TT} {t : TT} (hn : Next ts t rest) (h : ∀ x sp, t ≠ .ident x sp) (h' : ∀ r sp, t ≠ .lit r sp) {env : Env} :
    NoMatch env (.leaf (.lit .bool)) ts := by
  refine .leaf ⟨fun v rest' hl => ?_, fun ⟨_, r, sp, rest', hn', _⟩ => h' _ _ (next_det hn hn').1⟩
  cases hl with
  | lit hl =>
    cases hl with
    | bool _ hn' => exact h _ _ ((next_det hn hn').1)
    | _ => first | (rename_i h _ ; rcases h with h | h <;> cases h) | (rename_i h _ _; rcases h with h | h <;> cases h)

/-- An operator that is there. -/
theorem op_here {c : Char} (hc : c ≠ '\'') {v : Val} {pre d ts : List TT} {env : Env} (hv : HasTy env (.leaf (.punct [c])) v) (hr : Reads false v pre)
    (hd : dissolve ts = pre ++ d) : ∃ rest, dissolve rest = d ∧ (∃ spc sp, pre = [.punct c spc sp]) ∧ Matches env (.leaf (.punct [c])) ts v rest none := by
  cases hv with
  | leaf hl =>
    simp only [Reads] at hr
    cases hl with
    | punct hlen =>
      cases hr.2 with
      | punct hp =>
        cases hp with
        | last =>
          obtain ⟨rest, h1, h2⟩ := dissolve_punct hd
          exact ⟨rest, h2, ⟨_, _, rfl⟩, .leaf (.punct (.last hc h1))⟩
        | more _ hne => exact absurd rfl hne

theorem hasTy_expr {v : Val} (h : HasTy boolEnv (user "Expr") v) :
    (∃ a o b, v = .node (.ctor "Expr".toList "Or".toList) [a, o, b] ∧ HasTy boolEnv (user "Conjunction") a ∧ HasTy boolEnv (op "|") o ∧ HasTy boolEnv (user "Expr") b) ∨
      ∃ a, v = .node (.ctor "Expr".toList "Conjunction".toList) [a] ∧ HasTy boolEnv (user "Conjunction") a := by
  cases h with
  | struct he => cases he
  | enum he hw hs =>
    cases he
    rcases List.mem_cons.mp hw with rfl | hw
    · cases hs with | cons h1 hs => cases hs with | cons h2 hs => cases hs with | cons h3 hs => cases hs; cases h3 with | boxed h3 => exact .inl ⟨_, _, _, rfl, h1, h2, h3⟩
    · rcases List.mem_cons.mp hw with rfl | hw
      · cases hs with | cons h1 hs => cases hs; exact .inr ⟨_, rfl, h1⟩
      · cases hw

theorem hasTy_conj {v : Val} (h : HasTy boolEnv (user "Conjunction") v) :
    (∃ a o b, v = .node (.ctor "Conjunction".toList "And".toList) [a, o, b] ∧ HasTy boolEnv (user "Term") a ∧ HasTy boolEnv (op "&") o ∧
      HasTy boolEnv (user "Conjunction") b) ∨ ∃ a, v = .node (.ctor "Conjunction".toList "Term".toList) [a] ∧ HasTy boolEnv (user "Term") a := by
  cases h with
  | struct he => cases he
  | enum he hw hs =>
    cases he
    rcases List.mem_cons.mp hw with rfl | hw
    · cases hs with | cons h1 hs => cases hs with | cons h2 hs => cases hs with | cons h3 hs => cases hs; cases h3 with | boxed h3 => exact .inl ⟨_, _, _, rfl, h1, h2, h3⟩
    · rcases List.mem_cons.mp hw with rfl | hw
      · cases hs with | cons h1 hs => cases hs; exact .inr ⟨_, rfl, h1⟩
      · cases hw

theorem hasTy_term {v : Val} (h : HasTy boolEnv (user "Term") v) :
    (∃ a, v = .node (.ctor "Term".toList "Literal".toList) [a] ∧ HasTy boolEnv (.leaf (.lit .bool)) a) ∨
      (∃ o a, v = .node (.ctor "Term".toList "Not".toList) [o, a] ∧ HasTy boolEnv (op "!") o ∧ HasTy boolEnv (user "Term") a) ∨
      ∃ sp a, v = .node (.ctor "Term".toList "Group".toList) [.group .paren sp a] ∧ HasTy boolEnv (user "Expr") a := by
  cases h with
  | struct he => cases he
  | enum he hw hs =>
    cases he
    rcases List.mem_cons.mp hw with rfl | hw
    · cases hs with | cons h1 hs => cases hs; exact .inl ⟨_, rfl, h1⟩
    · rcases List.mem_cons.mp hw with rfl | hw
      · cases hs with | cons h1 hs => cases hs with | cons h2 hs => cases hs; cases h2 with | boxed h2 => exact .inr (.inl ⟨_, _, rfl, h1, h2⟩)
      · rcases List.mem_cons.mp hw with rfl | hw
        · cases hs with | cons h1 hs => cases hs; cases h1 with | paren h1 => cases h1 with | boxed h1 => exact .inr (.inr ⟨_, _, rfl, h1⟩)
        · cases hw

/-- The tokens of a sequence of values. -/
theorem readsL_cons' {v : Val} {vs : List Val} {a : List TT} (h : ReadsL false (v :: vs) a) : ∃ b c, a = b ++ c ∧ Reads false v b ∧ ReadsL false vs c := by
  simp only [ReadsL] at h
  obtain ⟨b, c, i, j, rfl, h1, h2, h3⟩ := h
  simp only [Bool.false_eq, Bool.or_eq_false_iff] at h3
  obtain ⟨rfl, rfl⟩ := h3
  exact ⟨b, c, rfl, h1, h2⟩

theorem readsL_nil' {a : List TT} (h : ReadsL false [] a) : a = [] := by
  simp only [ReadsL] at h
  exact h.2

/-- What is proved by induction about values of the three types. -/
structure BoolBack (v : Val) : Prop where
  term : HasTy boolEnv (user "Term") v → ∀ {pre d ts : List TT}, Reads false v pre → dissolve ts = pre ++ d →
    ∃ rest, dissolve rest = d ∧ Matches boolEnv (user "Term") ts v rest none
  conj : HasTy boolEnv (user "Conjunction") v → ∀ {pre d ts : List TT}, Reads false v pre → dissolve ts = pre ++ d → NotNext '&' d →
    ∃ rest, dissolve rest = d ∧ Matches boolEnv (user "Conjunction") ts v rest none
  expr : HasTy boolEnv (user "Expr") v → ∀ {pre d ts : List TT}, Reads false v pre → dissolve ts = pre ++ d → NotNext '&' d → NotNext '|' d →
    ∃ rest, dissolve rest = d ∧ Matches boolEnv (user "Expr") ts v rest none

theorem bool_back : ∀ (n : Nat) (v : Val), sizeOf v < n → BoolBack v := by
  intro n
  induction n with
  | zero => intro v h; omega
  | succ n ih =>
    intro v hn
    refine ⟨?_, ?_, ?_⟩
    · intro hv pre d ts hr hd
      rcases hasTy_term hv with ⟨a, rfl, ha⟩ | ⟨o, a, rfl, ho, ha⟩ | ⟨sp, a, rfl, ha⟩
      · simp only [Reads] at hr
        rw [readsL_single] at hr
        cases ha with
        | leaf hl =>
          cases hl with
          | bool =>
            simp only [Reads] at hr
            cases hr.2 with
            | lit hr =>
              cases hr with
              | bool b sp =>
                obtain ⟨rest, h1, h2⟩ := dissolve_ident hd
                exact ⟨rest, h2, .enum (before := []) (v := ⟨"Literal".toList, .unnamed [plain (.leaf (.lit .bool))]⟩) rfl (by simp)
                  (.cons (.leaf (.lit (.bool (.inl rfl) h1))) .nil)⟩
      · simp only [Reads] at hr
        obtain ⟨p1, p2, rfl, h1, h2⟩ := readsL_cons' hr
        rw [readsL_single] at h2
        rw [List.append_assoc] at hd
        obtain ⟨m, e1, ⟨spc, sp, rfl⟩, m1⟩ := op_here (by decide) ho h1 hd
        obtain ⟨rest, e2, m2⟩ := (ih a (by simp at hn; omega)).term ha h2 e1
        obtain ⟨q, hq, _⟩ := dissolve_punct hd
        refine ⟨rest, e2, .enum (before := [⟨"Literal".toList, .unnamed [plain (.leaf (.lit .bool))]⟩])
          (v := ⟨"Not".toList, .unnamed [plain (op "!"), recursive (.boxed (user "Term"))]⟩) rfl ?_ (.cons m1 (.cons (.boxed m2) .nil))⟩
        intro u hu
        rw [List.mem_singleton.mp hu]
        exact .here (noBool_at hq (by simp) (by simp))
      · simp only [Reads] at hr
        rw [readsL_single] at hr
        simp only [Reads] at hr
        obtain ⟨x, y, i, rfl, h1, h2⟩ := hr
        simp only [Bool.false_eq, Bool.or_eq_false_iff, Bool.not_eq_false', List.isEmpty_iff] at h2
        obtain ⟨rfl, rfl⟩ := h2
        obtain ⟨inner, rest, hq, e1, e2⟩ := dissolve_paren hd
        obtain ⟨r, e3, m⟩ := (ih a (by simp at hn; omega)).expr ha h1 (d := []) (by rw [e1]) (by intro _ _ _ h; cases h) (by intro _ _ _ h; cases h)
        refine ⟨rest, e2, .enum (before := [⟨"Literal".toList, .unnamed [plain (.leaf (.lit .bool))]⟩, ⟨"Not".toList, .unnamed [plain (op "!"), recursive (.boxed (user "Term"))]⟩])
          (v := ⟨"Group".toList, .unnamed [recursive (.paren (.boxed (user "Expr")))]⟩) rfl ?_
          (.cons (.group (l1 := none) (l2 := none) .paren hq (.boxed m) ((firstUnread_iff _ _).mpr ?_)) .nil)⟩
        · intro u hu
          rcases List.mem_cons.mp hu with rfl | hu
          · exact .here (noBool_at hq (by simp) (by simp))
          · rw [List.mem_singleton.mp hu]
            exact .here (noOp_at hq (by simp))
        · simp only [unexpectedSpan, (dissolve_eq_nil_iff r).mp e3, Option.map_none]
    · intro hv pre d ts hr hd hd1
      rcases hasTy_conj hv with ⟨a, o, b, rfl, ha, ho, hb⟩ | ⟨a, rfl, ha⟩
      · simp only [Reads] at hr
        obtain ⟨p1, p2, rfl, h1, h2⟩ := readsL_cons' hr
        obtain ⟨p2, p3, rfl, h2, h3⟩ := readsL_cons' h2
        rw [readsL_single] at h3
        rw [List.append_assoc, List.append_assoc] at hd
        obtain ⟨m, e1, m1⟩ := (ih a (by simp at hn; omega)).term ha h1 hd
        obtain ⟨m', e2, _, m2⟩ := op_here (by decide) ho h2 e1
        obtain ⟨rest, e3, m3⟩ := (ih b (by simp at hn; omega)).conj hb h3 e2 hd1
        exact ⟨rest, e3, .enum (before := []) (v := ⟨"And".toList, _⟩) rfl (by simp) (.cons m1 (.cons m2 (.cons (.boxed m3) .nil)))⟩
      · simp only [Reads] at hr
        rw [readsL_single] at hr
        obtain ⟨m, e1, m1⟩ := (ih a (by simp at hn; omega)).term ha hr hd
        refine ⟨m, e1, .enum (before := [_]) (v := ⟨"Term".toList, _⟩) rfl ?_ (.cons m1 .nil)⟩
        intro u hu
        rw [List.mem_singleton.mp hu]
        exact .later m1 (.here (noOp (by rw [e1]; exact hd1)))
    · intro hv pre d ts hr hd hd1 hd2
      rcases hasTy_expr hv with ⟨a, o, b, rfl, ha, ho, hb⟩ | ⟨a, rfl, ha⟩
      · simp only [Reads] at hr
        obtain ⟨p1, p2, rfl, h1, h2⟩ := readsL_cons' hr
        obtain ⟨p2, p3, rfl, h2, h3⟩ := readsL_cons' h2
        rw [readsL_single] at h3
        rw [List.append_assoc, List.append_assoc] at hd
        have hp : ∃ spc sp, p2 = [.punct '|' spc sp] := by
          obtain ⟨_, _, h, _⟩ := op_here (ts := p2) (d := []) (by decide) ho h2 (by
            rw [List.append_nil]
            cases ho with
            | leaf hl => cases hl with | punct _ => cases h2.2 with | punct hp => cases hp with | last => rfl | more _ h => exact absurd rfl h)
          exact h
        obtain ⟨spc, sp, rfl⟩ := hp
        obtain ⟨m, e1, m1⟩ := (ih a (by simp at hn; omega)).conj ha h1 hd (by intro _ _ _ h; cases h)
        obtain ⟨m', e2, _, m2⟩ := op_here (by decide) ho h2 e1
        obtain ⟨rest, e3, m3⟩ := (ih b (by simp at hn; omega)).expr hb h3 e2 hd1 hd2
        exact ⟨rest, e3, .enum (before := []) (v := ⟨"Or".toList, _⟩) rfl (by simp) (.cons m1 (.cons m2 (.cons (.boxed m3) .nil)))⟩
      · simp only [Reads] at hr
        rw [readsL_single] at hr
        obtain ⟨m, e1, m1⟩ := (ih a (by simp at hn; omega)).conj ha hr hd hd1
        refine ⟨m, e1, .enum (before := [_]) (v := ⟨"Conjunction".toList, _⟩) rfl ?_ (.cons m1 .nil)⟩
        intro u hu
        rw [List.mem_singleton.mp hu]
        exact .later m1 (.here (noOp (by rw [e1]; exact hd2)))

/-- **C77.** The Boolean language of README.md lines 172-205 is not LL(1), but its parser accepts exactly what its types describe, on all streams: `ts` is accepted as `v` if and only
if `v` is an `Expr` and stands for the tokens of `ts`. -/
theorem C77_bool {ts : List TT} {v : Val} : Accepts boolEnv (user "Expr") ts v ↔ HasTy boolEnv (user "Expr") v ∧ Reads false v (dissolve ts) := by
  refine ⟨C76_sound, fun ⟨hv, hr⟩ => ?_⟩
  obtain ⟨rest, h1, h2⟩ := (bool_back _ v (Nat.lt_succ_self _)).expr hv hr (d := []) (ts := ts) (by simp) (by intro _ _ _ h; cases h) (by intro _ _ _ h; cases h)
  obtain ⟨n, hn⟩ := matches_parses h2 ⟨ts, .callSite, none⟩ rfl
  refine ⟨n, (parse2_of hn).1 ⟨rfl, ?_⟩⟩
  exact h1

/-! ### sentences of the Boolean language -/

/-- The tokens of an operator of one character. -/
theorem op_reads {env : Env} {c : Char} {v : Val} {pre : List TT} (hv : HasTy env (.leaf (.punct [c])) v) (hr : Reads false v pre) : ∃ spc sp, pre = [.punct c spc sp] := by
  cases hv with
  | leaf hl =>
    cases hl with
    | punct _ =>
      cases hr.2 with
      | punct hp =>
        cases hp with
        | last => exact ⟨_, _, rfl⟩
        | more _ h => exact absurd rfl h

/-- The tokens of a Boolean literal. -/
theorem bool_reads {env : Env} {v : Val} {pre : List TT} (hv : HasTy env (.leaf (.lit .bool)) v) (hr : Reads false v pre) : IsTerm pre := by
  cases hv with
  | leaf hl =>
    cases hl with
    | bool =>
      cases hr.2 with
      | lit h => cases h with | bool => exact .lit

/-- The tokens of a group. -/
theorem group_reads {d : Delim} {sp : Span} {v : Val} {pre : List TT} (hr : Reads false (.group d sp v) pre) : ∃ a, pre = [.group d a sp] ∧ Reads false v a := by
  simp only [Reads] at hr
  obtain ⟨x, y, i, rfl, h1, h2⟩ := hr
  simp only [Bool.false_eq, Bool.or_eq_false_iff, Bool.not_eq_false', List.isEmpty_iff] at h2
  obtain ⟨rfl, rfl⟩ := h2
  exact ⟨x, by rw [List.append_nil], h1⟩

/-- Values of the Boolean grammar stand for sentences. -/
theorem bool_sentence : ∀ (n : Nat) (v : Val), sizeOf v < n → ∀ {pre : List TT}, Reads false v pre →
    (HasTy boolEnv (user "Term") v → IsTerm pre) ∧ (HasTy boolEnv (user "Conjunction") v → IsConj pre) ∧ (HasTy boolEnv (user "Expr") v → IsExpr pre) := by
  intro n
  induction n with
  | zero => intro v h; omega
  | succ n ih =>
    intro v hn pre hr
    refine ⟨fun hv => ?_, fun hv => ?_, fun hv => ?_⟩
    · rcases hasTy_term hv with ⟨a, rfl, ha⟩ | ⟨o, a, rfl, ho, ha⟩ | ⟨sp, a, rfl, ha⟩
      · simp only [Reads] at hr
        rw [readsL_single] at hr
        exact bool_reads ha hr
      · simp only [Reads] at hr
        obtain ⟨p1, p2, rfl, h1, h2⟩ := readsL_cons' hr
        rw [readsL_single] at h2
        obtain ⟨spc, sp, rfl⟩ := op_reads ho h1
        exact .not ((ih a (by simp at hn; omega) h2).1 ha)
      · simp only [Reads] at hr
        rw [readsL_single] at hr
        obtain ⟨x, rfl, h1⟩ := group_reads hr
        exact .group ((ih a (by simp at hn; omega) h1).2.2 ha)
    · rcases hasTy_conj hv with ⟨a, o, b, rfl, ha, ho, hb⟩ | ⟨a, rfl, ha⟩
      · simp only [Reads] at hr
        obtain ⟨p1, p2, rfl, h1, h2⟩ := readsL_cons' hr
        obtain ⟨p2, p3, rfl, h2, h3⟩ := readsL_cons' h2
        rw [readsL_single] at h3
        obtain ⟨spc, sp, rfl⟩ := op_reads ho h2
        exact .and ((ih a (by simp at hn; omega) h1).1 ha) ((ih b (by simp at hn; omega) h3).2.1 hb)
      · simp only [Reads] at hr
        rw [readsL_single] at hr
        exact .one ((ih a (by simp at hn; omega) hr).1 ha)
    · rcases hasTy_expr hv with ⟨a, o, b, rfl, ha, ho, hb⟩ | ⟨a, rfl, ha⟩
      · simp only [Reads] at hr
        obtain ⟨p1, p2, rfl, h1, h2⟩ := readsL_cons' hr
        obtain ⟨p2, p3, rfl, h2, h3⟩ := readsL_cons' h2
        rw [readsL_single] at h3
        obtain ⟨spc, sp, rfl⟩ := op_reads ho h2
        exact .or ((ih a (by simp at hn; omega) h1).2.1 ha) ((ih b (by simp at hn; omega) h3).2.2 hb)
      · simp only [Reads] at hr
        rw [readsL_single] at hr
        exact .one ((ih a (by simp at hn; omega) hr).2.1 ha)

theorem readsL_two {v w : Val} {a b : List TT} (h1 : Reads false v a) (h2 : Reads false w b) : ReadsL false [v, w] (a ++ b) := by
  have := readsL_append (readsL_single.mpr h1) (readsL_single.mpr h2)
  exact this

theorem readsL_three {u v w : Val} {a b c : List TT} (h0 : Reads false u a) (h1 : Reads false v b) (h2 : Reads false w c) : ReadsL false [u, v, w] (a ++ (b ++ c)) := by
  have := readsL_append (readsL_single.mpr h0) (readsL_two h1 h2)
  exact this

theorem op_value (env : Env) (c : Char) (spc : Spacing) (sp : Span) : HasTy env (.leaf (.punct [c])) (.leaf (.punct [c]) (.mark [sp])) ∧
    Reads false (.leaf (.punct [c]) (.mark [sp])) [.punct c spc sp] := ⟨.leaf (.punct rfl), by simp only [Reads]; exact ⟨trivial, .punct .last⟩⟩

mutual
/-- Sentences are stood for by values of the Boolean grammar. -/
theorem term_value : ∀ {a : List TT}, IsTerm a → ∃ v, HasTy boolEnv (user "Term") v ∧ Reads false v a
  | _, .lit (b := b) (sp := sp) => ⟨.node (.ctor "Term".toList "Literal".toList) [.leaf (.lit .bool) (.lit (.bool b) sp)],
      .enum (w := ⟨"Literal".toList, _⟩) rfl (.head _) (.cons (.leaf .bool) .nil), by
        simp only [Reads]
        rw [readsL_single]
        simp only [Reads]
        exact ⟨trivial, .lit (.bool b sp)⟩⟩
  | _, .not (spc := spc) (sp := sp) h => by
    obtain ⟨v, h1, h2⟩ := term_value h
    obtain ⟨h3, h4⟩ := op_value boolEnv '!' spc sp
    exact ⟨.node (.ctor "Term".toList "Not".toList) [_, v], .enum (w := ⟨"Not".toList, _⟩) rfl (.tail _ (.head _)) (.cons h3 (.cons (.boxed h1) .nil)), readsL_two h4 h2⟩
  | _, .group (sp := sp) (a := a) h => by
    obtain ⟨v, h1, h2⟩ := expr_value h
    refine ⟨.node (.ctor "Term".toList "Group".toList) [.group .paren sp v], .enum (w := ⟨"Group".toList, _⟩) rfl (.tail _ (.tail _ (.head _))) (.cons (.paren (.boxed h1)) .nil), ?_⟩
    simp only [Reads]
    rw [readsL_single]
    simp only [Reads]
    exact ⟨a, [], false, by rw [List.append_nil], h2, rfl⟩
theorem conj_value : ∀ {a : List TT}, IsConj a → ∃ v, HasTy boolEnv (user "Conjunction") v ∧ Reads false v a
  | _, .one h => by
    obtain ⟨v, h1, h2⟩ := term_value h
    exact ⟨.node (.ctor "Conjunction".toList "Term".toList) [v], .enum (w := ⟨"Term".toList, _⟩) rfl (.tail _ (.head _)) (.cons h1 .nil), readsL_single.mpr h2⟩
  | _, .and (spc := spc) (sp := sp) h h' => by
    obtain ⟨v, h1, h2⟩ := term_value h
    obtain ⟨w, h1', h2'⟩ := conj_value h'
    obtain ⟨h3, h4⟩ := op_value boolEnv '&' spc sp
    exact ⟨.node (.ctor "Conjunction".toList "And".toList) [v, _, w], .enum (w := ⟨"And".toList, _⟩) rfl (.head _) (.cons h1 (.cons h3 (.cons (.boxed h1') .nil))),
      readsL_three h2 h4 h2'⟩
theorem expr_value : ∀ {a : List TT}, IsExpr a → ∃ v, HasTy boolEnv (user "Expr") v ∧ Reads false v a
  | _, .one h => by
    obtain ⟨v, h1, h2⟩ := conj_value h
    exact ⟨.node (.ctor "Expr".toList "Conjunction".toList) [v], .enum (w := ⟨"Conjunction".toList, _⟩) rfl (.tail _ (.head _)) (.cons h1 .nil), readsL_single.mpr h2⟩
  | _, .or (spc := spc) (sp := sp) h h' => by
    obtain ⟨v, h1, h2⟩ := conj_value h
    obtain ⟨w, h1', h2'⟩ := expr_value h'
    obtain ⟨h3, h4⟩ := op_value boolEnv '|' spc sp
    exact ⟨.node (.ctor "Expr".toList "Or".toList) [v, _, w], .enum (w := ⟨"Or".toList, _⟩) rfl (.head _) (.cons h1 (.cons h3 (.cons (.boxed h1') .nil))),
      readsL_three h2 h4 h2'⟩
end

/-- **C77.** The parser derived from README.md's types accepts a stream if and only if it is a sentence of the Boolean language. -/
theorem C77_bool_sentences {ts : List TT} : (∃ v, Accepts boolEnv (user "Expr") ts v) ↔ IsExpr (dissolve ts) := by
  constructor
  · rintro ⟨v, h⟩
    obtain ⟨h1, h2⟩ := C77_bool.mp h
    exact (bool_sentence _ v (Nat.lt_succ_self _) h2).2.2 h1
  · intro h
    obtain ⟨v, h1, h2⟩ := expr_value h
    exact ⟨v, C77_bool.mpr ⟨h1, h2⟩⟩

/-! ### the same language, with `RightAssoc` and `Any` -/

/-- `Expr` from its parts. -/
theorem iter_wrap {ts mid rest : List TT} {v : Val} {tail : List (Val × Val)} (h2 : Matches iterEnv (.rightAssoc (op "&") (user "Term")) ts v mid none)
    (h3 : MatchesTail iterEnv (op "|") (.rightAssoc (op "&") (user "Term")) mid tail rest none) : ∃ v, Matches iterEnv (user "Expr") ts v rest none :=
  ⟨_, .struct rfl (.cons (l1 := none) (l2 := none) (.rightAssoc (l1 := none) (l2 := none) h2 h3) .nil)⟩

mutual
theorem iter_term_back : ∀ {a : List TT}, IsTerm a → ∀ {ts d : List TT}, dissolve ts = a ++ d →
    ∃ vs rest, dissolve rest = d ∧ MatchesSeq iterEnv [.any (op "!"), user "Atom"] ts vs rest none
  | _, .lit (b := b) (sp := sp), ts, d, hd => by
    obtain ⟨rest, h1, h2⟩ := dissolve_ident hd
    exact ⟨_, rest, h2, .cons (l1 := none) (l2 := none) (.any (.done (noOp_at h1 (by simp)))) (.cons (l1 := none) (l2 := none)
      (.enum (before := []) (v := ⟨"Literal".toList, _⟩) rfl (by simp) (.cons (l1 := none) (l2 := none) (.leaf (.lit (.bool (.inl rfl) h1))) .nil)) .nil)⟩
  | _, .not (spc := spc) (sp := sp) h, ts, d, hd => by
    obtain ⟨mid, h1, h2⟩ := dissolve_punct hd
    obtain ⟨vs, rest, h3, h4⟩ := iter_term_back h h2
    generalize hl : (none : Option Span) = left at h4
    cases h4 with
    | @cons _ _ _ v m l1 ws _ l2 ha hb =>
      cases ha with
      | group hg => cases hg
      | any ha =>
        have : l1 = none ∧ l2 = none := by cases l1 <;> simp_all
        obtain ⟨rfl, rfl⟩ := this
        have := MatchesMany.more (l1 := none) (.leaf (.punct (.last (by decide) h1))) ha
        exact ⟨_, rest, h3, .cons (l1 := none) (l2 := none) (.any this) hb⟩
  | _, .group (sp := sp) (a := a) h, ts, d, hd => by
    obtain ⟨inner, rest, hq, e1, e2⟩ := dissolve_paren hd
    obtain ⟨_, _, _, r, e3, m1, m2⟩ := iter_ors_back h (d := []) (by rw [e1, List.append_nil]) (by intro _ _ _ h; cases h) (by intro _ _ _ h; cases h)
    obtain ⟨v, m⟩ := iter_wrap m1 m2
    refine ⟨_, rest, e2, .cons (l1 := none) (l2 := none) (.any (.done (noOp_at hq (by simp)))) (.cons (l1 := none) (l2 := none)
      (.enum (before := [⟨"Literal".toList, .unnamed [plain (.leaf (.lit .bool))]⟩]) (v := ⟨"Group".toList, .unnamed [recursive (.paren (.boxed (user "Expr")))]⟩) rfl ?_
        (.cons (l1 := none) (l2 := none) (.group (l1 := none) (l2 := none) .paren hq (.boxed m) ((firstUnread_iff _ _).mpr ?_)) .nil)) .nil)⟩
    · intro u hu
      rw [List.mem_singleton.mp hu]
      exact .here (noBool_at hq (by simp) (by simp))
    · simp only [unexpectedSpan, (dissolve_eq_nil_iff r).mp e3, Option.map_none]
theorem iter_conj_back : ∀ {a : List TT}, IsConj a → ∀ {ts d : List TT}, dissolve ts = a ++ d → NotNext '&' d →
    ∃ v mid tail rest, dissolve rest = d ∧ Matches iterEnv (user "Term") ts v mid none ∧ MatchesTail iterEnv (op "&") (user "Term") mid tail rest none
  | _, .one h, ts, d, hd, hn => by
    obtain ⟨vs, rest, h1, h2⟩ := iter_term_back h hd
    exact ⟨_, rest, [], rest, h1, .struct rfl h2, .done (noOp (by rw [h1]; exact hn))⟩
  | _, .and h h', ts, d, hd, hn => by
    rw [List.append_assoc] at hd
    obtain ⟨vs, mid, h1, h2⟩ := iter_term_back h hd
    obtain ⟨m, h3, h4⟩ := dissolve_punct h1
    obtain ⟨v, mid', tail, rest, e1, e2, e3⟩ := iter_conj_back h' h4 hn
    exact ⟨_, mid, _, rest, e1, .struct rfl h2, .more (l1 := none) (l2 := none) (l3 := none) (.leaf (.punct (.last (by decide) h3))) e2 e3⟩
theorem iter_ors_back : ∀ {a : List TT}, IsExpr a → ∀ {ts d : List TT}, dissolve ts = a ++ d → NotNext '&' d → NotNext '|' d →
    ∃ v mid tail rest, dissolve rest = d ∧ Matches iterEnv (.rightAssoc (op "&") (user "Term")) ts v mid none ∧
      MatchesTail iterEnv (op "|") (.rightAssoc (op "&") (user "Term")) mid tail rest none
  | _, .one h, ts, d, hd, hn, hn' => by
    obtain ⟨v, mid, tail, rest, h1, h2, h3⟩ := iter_conj_back h hd hn
    exact ⟨_, rest, [], rest, h1, .rightAssoc (l1 := none) (l2 := none) h2 h3, .done (noOp (by rw [h1]; exact hn'))⟩
  | _, .or h h', ts, d, hd, hn, hn' => by
    rw [List.append_assoc] at hd
    obtain ⟨v, mid, tail, rest, h1, h2, h3⟩ := iter_conj_back h hd (by intro _ _ _ h; cases h)
    obtain ⟨m, h4, h5⟩ := dissolve_punct h1
    obtain ⟨w, mid', tail', rest', e1, e2, e3⟩ := iter_ors_back h' h5 hn hn'
    exact ⟨_, rest, _, rest', e1, .rightAssoc (l1 := none) (l2 := none) h2 h3,
      .more (l1 := none) (l2 := none) (l3 := none) (.leaf (.punct (.last (by decide) h4))) e2 e3⟩
end

/-- Any number of `!` before a term makes a term. -/
private theorem nots_sentence {m : Nat} {ns : List Val} {p1 p2 : List TT} (h1 : HasTys iterEnv (List.replicate m (op "!")) ns) (r1 : ReadsL false ns p1) (ht : IsTerm p2) : IsTerm (p1 ++ p2) := by
  induction m generalizing ns p1 with
  | zero => cases h1; rw [readsL_nil' r1]; exact ht
  | succ m ih =>
    rw [List.replicate_succ] at h1
    cases h1 with
    | cons h1 hs =>
      obtain ⟨q1, q2, rfl, r1, r2⟩ := readsL_cons' r1
      obtain ⟨spc, sp, rfl⟩ := op_reads h1 r1
      exact .not (ih hs r2)

/-- Values of the second grammar stand for sentences. -/
theorem iter_sentence : ∀ (n : Nat) (v : Val), sizeOf v < n → ∀ {pre : List TT}, Reads false v pre →
    (HasTy iterEnv (user "Atom") v → IsTerm pre) ∧ (HasTy iterEnv (user "Term") v → IsTerm pre) ∧
      (HasTy iterEnv (.rightAssoc (op "&") (user "Term")) v → IsConj pre) ∧
      (HasTy iterEnv (.rightAssoc (op "|") (.rightAssoc (op "&") (user "Term"))) v → IsExpr pre) ∧ (HasTy iterEnv (user "Expr") v → IsExpr pre) := by
  intro n
  induction n with
  | zero => intro v h; omega
  | succ n ih =>
    intro v hn pre hr
    refine ⟨fun hv => ?_, fun hv => ?_, fun hv => ?_, fun hv => ?_, fun hv => ?_⟩
    · cases hv with
      | struct he => cases he
      | enum he hw hs =>
        cases he
        rcases List.mem_cons.mp hw with rfl | hw
        · cases hs with
          | cons h1 hs =>
            cases hs
            simp only [Reads] at hr
            rw [readsL_single] at hr
            exact bool_reads h1 hr
        · rcases List.mem_cons.mp hw with rfl | hw
          · cases hs with
            | cons h1 hs =>
              cases hs
              simp only [Reads] at hr
              rw [readsL_single] at hr
              cases h1 with
              | paren h1 =>
                cases h1 with
                | boxed h1 =>
                  obtain ⟨x, rfl, h2⟩ := group_reads hr
                  exact .group ((ih _ (by simp at hn; omega) h2).2.2.2.2 h1)
          · cases hw
    · cases hv with
      | enum he => cases he
      | struct he hs =>
        cases he
        cases hs with
        | cons h1 hs =>
          cases hs with
          | cons h2 hs =>
            cases hs
            simp only [Reads] at hr
            obtain ⟨p1, p2, rfl, r1, r2⟩ := readsL_cons' hr
            rw [readsL_single] at r2
            have hatom := (ih _ (by simp at hn; omega) r2).1 h2
            cases h1 with
            | any h1 =>
              simp only [Reads] at r1
              exact nots_sentence h1 r1 hatom
    · cases hv with
      | rightLhs h =>
        simp only [Reads] at hr
        rw [readsL_single] at hr
        exact .one ((ih _ (by simp at hn; omega) hr).2.1 h)
      | rightBin ha ho hb =>
        simp only [Reads] at hr
        obtain ⟨p1, p2, rfl, h1, h2⟩ := readsL_cons' hr
        obtain ⟨p2, p3, rfl, h2, h3⟩ := readsL_cons' h2
        rw [readsL_single] at h3
        obtain ⟨spc, sp, rfl⟩ := op_reads ho h2
        exact .and ((ih _ (by simp at hn; omega) h1).2.1 ha) ((ih _ (by simp at hn; omega) h3).2.2.1 hb)
    · cases hv with
      | rightLhs h =>
        simp only [Reads] at hr
        rw [readsL_single] at hr
        exact .one ((ih _ (by simp at hn; omega) hr).2.2.1 h)
      | rightBin ha ho hb =>
        simp only [Reads] at hr
        obtain ⟨p1, p2, rfl, h1, h2⟩ := readsL_cons' hr
        obtain ⟨p2, p3, rfl, h2, h3⟩ := readsL_cons' h2
        rw [readsL_single] at h3
        obtain ⟨spc, sp, rfl⟩ := op_reads ho h2
        exact .or ((ih _ (by simp at hn; omega) h1).2.2.1 ha) ((ih _ (by simp at hn; omega) h3).2.2.2.1 hb)
    · cases hv with
      | enum he => cases he
      | struct he hs =>
        cases he
        cases hs with
        | cons h1 hs =>
          cases hs
          simp only [Reads] at hr
          rw [readsL_single] at hr
          exact (ih _ (by simp at hn; omega) hr).2.2.2.1 h1

/-- **C77.** The rewritten grammar accepts the same sentences ... -/
theorem C77_iter_sentences {ts : List TT} : (∃ v, Accepts iterEnv (user "Expr") ts v) ↔ IsExpr (dissolve ts) := by
  constructor
  · rintro ⟨v, h⟩
    obtain ⟨h1, h2⟩ := C76_sound h
    exact (iter_sentence _ v (Nat.lt_succ_self _) h2).2.2.2.2 h1
  · intro h
    obtain ⟨_, _, _, rest, h1, m1, m2⟩ := iter_ors_back h (ts := ts) (d := []) (by simp) (by intro _ _ _ h; cases h) (by intro _ _ _ h; cases h)
    obtain ⟨v, m⟩ := iter_wrap m1 m2
    obtain ⟨n, hn⟩ := matches_parses m ⟨ts, .callSite, none⟩ rfl
    exact ⟨v, n, (parse2_of hn).1 ⟨rfl, h1⟩⟩

/-- **C77.** ... so replacing right recursion by `RightAssoc`, as README.md suggests, changes neither what is accepted nor what is rejected. -/
theorem C77_rewrite {ts : List TT} : (∃ v, Accepts boolEnv (user "Expr") ts v) ↔ ∃ w, Accepts iterEnv (user "Expr") ts w := by
  rw [C77_bool_sentences, C77_iter_sentences]


/-- The leaves of the Boolean language can be printed. -/
private theorem bool_leaf {env : Env} {G : List Ty} (closed : ∀ t ∈ G, ∀ u, PartOf env u t → u ∈ G) {t : Ty} (ht : t ∈ G) {v : Val} (hv : HasTy env t v)
    (hl : ∀ l, Ty.leaf l ∈ G → l = .lit .bool ∨ l = .punct "!".toList ∨ l = .punct "&".toList ∨ l = .punct "|".toList) :
    v.AllLeaves fun l => l = .lit .bool ∨ l = .punct "!".toList ∨ l = .punct "&".toList ∨ l = .punct "|".toList :=
  allLeaves_mono (fun l h => hl l h) v (hasTy_leaves (G := fun t => t ∈ G) closed hv ht)

mutual
private theorem bool_printable : ∀ {v : Val}, Formed v → (v.AllLeaves fun l => l = .lit .bool ∨ l = .punct "!".toList ∨ l = .punct "&".toList ∨ l = .punct "|".toList) → Printable v
  | .leaf l v, h, hl => by
    simp only [Val.AllLeaves] at hl
    rcases hl with rfl | rfl | rfl | rfl <;> cases h <;> simp [Printable, LitVal.Finite]
  | .group d sp v, h, hl => by simp only [Printable]; exact bool_printable h.2 hl
  | .node _ vs, h, hl => bool_printableL h hl
private theorem bool_printableL : ∀ {vs : List Val}, FormedL vs →
    (AllLeavesL (fun l => l = .lit .bool ∨ l = .punct "!".toList ∨ l = .punct "&".toList ∨ l = .punct "|".toList) vs) → PrintableL vs
  | [], _, _ => trivial
  | v :: vs, h, hl => ⟨bool_printable h.1 hl.1, bool_printableL h.2 hl.2⟩
end

theorem op_text : OperatorText "!".toList ∧ OperatorText "&".toList ∧ OperatorText "|".toList ∧ OperatorText ",".toList ∧ OperatorText ":".toList := by
  have h : ∀ c ∈ punctChars, c ≠ '\'' → OperatorText [c] := by
    intro c hc hq
    refine ⟨by simp, by simp [hc, hq], ?_, ?_⟩ <;> intro h <;> have := h.length_le <;> simp at this
  exact ⟨h '!' (by decide) (by decide), h '&' (by decide) (by decide), h '|' (by decide) (by decide), h ',' (by decide) (by decide), h ':' (by decide) (by decide)⟩

private theorem leaves_of {G : List Ty} (h : (G.all fun t => match t with
    | .leaf l => decide (l = .lit .bool ∨ l = .punct "!".toList ∨ l = .punct "&".toList ∨ l = .punct "|".toList)
    | _ => true) = true) (l : Leaf) (hl : Ty.leaf l ∈ G) : l = .lit .bool ∨ l = .punct "!".toList ∨ l = .punct "&".toList ∨ l = .punct "|".toList := by
  have := List.all_eq_true.mp h _ hl
  simpa using this

/-- **C77.** Every expression of README.md's Boolean language, parsed or built by hand, can be printed; its tokens are parsed as the same expression again, and
`from_str` of `to_string` (both formats) gives it back, up to locations. -/
theorem C77_bool_round_trip (laws : FloatLaws) (alternate : Bool) {v : Val} (hv : HasTy boolEnv (user "Expr") v) :
    (∃ ts, v.toTokens = some ts ∧ Accepts boolEnv (user "Expr") ts v) ∧
      ∃ text w, display alternate v = some text ∧ AcceptsStr boolEnv (user "Expr") text w ∧ Alike v w := by
  have hl := bool_leaf bool_closed (t := user "Expr") (by decide +kernel) hv (leaves_of (by decide +kernel))
  obtain ⟨ts, ho⟩ := (C38_value_prints_iff hv).mpr (bool_printable (hasTy_formed hv) hl)
  have ha : Accepts boolEnv (user "Expr") ts v := C77_bool.mpr ⟨hv, C76_printed laws hv ho⟩
  have hx : HasText v := by
    refine formed_text (hasTy_formed hv) (allLeaves_mono ?_ v hl)
    rintro l (rfl | rfl | rfl | rfl)
    · trivial
    · exact op_text.1
    · exact op_text.2.1
    · exact op_text.2.2.1
  obtain ⟨text, ts', h1, _, h3, h4⟩ := display_reads laws alternate hv hx ho
  obtain ⟨w, ⟨n, hw⟩, hal⟩ := C31_accepts h4 ha
  exact ⟨⟨ts, ho, ha⟩, text, w, h1, ⟨n, by simp only [parseStr, h3]; exact hw⟩, hal⟩

private theorem halts_of {env : Env} {G : List Ty} {n : Nat} (h : ends env G n = true) {t : Ty} (ht : t ∈ G) {ts : List TT} (hr : Readable ts) :
    (∃ v, Accepts env t ts v) ∨ ∃ e, Rejects env t ts e :=
  C29_terminates_parse2 (fun _ ht _ hu => (ends_covers h).1.part ht hu) (fun _ ht hc => absurd ((ends_covers h).1.rank hc ht) (Nat.lt_irrefl _))
    (fun _ ht => rounds_sound (ends_covers h).1 ht ((ends_covers h).2 _ ht)) ht hr

/-- **C77.** On every stream of readable literals, each of the three parsers ends, with a value or an error. -/
theorem C77_halts {ts : List TT} (hr : Readable ts) :
    ((∃ v, Accepts boolEnv (user "Expr") ts v) ∨ ∃ e, Rejects boolEnv (user "Expr") ts e) ∧
      ((∃ v, Accepts iterEnv (user "Expr") ts v) ∨ ∃ e, Rejects iterEnv (user "Expr") ts e) ∧
      ((∃ v, Accepts jsonEnv (user "Value") ts v) ∨ ∃ e, Rejects jsonEnv (user "Value") ts e) :=
  ⟨halts_of (G := boolTypes) (n := 14) (by decide +kernel) (by decide +kernel) hr, halts_of (G := iterTypes) (n := 14) (by decide +kernel) (by decide +kernel) hr,
    halts_of (G := jsonTypes) (n := 14) (by decide +kernel) (by decide +kernel) hr⟩

/-! ### the JSON-like language -/

theorem json_checks : ll1 jsonEnv jsonTypes 8 = true ∧ solid jsonEnv jsonTypes 8 = true ∧ user "Value" ∈ jsonTypes ∧
    closesAtEnd jsonEnv jsonTypes 8 (user "Value") = true := by decide +kernel

theorem json_separable : separable jsonEnv jsonTypes 8 = true := by decide +kernel

/-- **C77.** The JSON-like language of README.md: a stream (as the lexer makes them, without `-0`) is parsed as `v` if and only if `v` is a `Value` and stands for
exactly these tokens.  (No float in it is infinite.) -/
theorem C77_json (laws : FloatLaws) (signs : SignLaws) {ts : List TT} (hord : Ordinary ts) (hz : NoMinusZero ts) {v : Val} (hp : Printable v) :
    Accepts jsonEnv (user "Value") ts v ↔ HasTy jsonEnv (user "Value") v ∧ Reads false v (dissolve ts) := by
  refine ⟨C76_sound, fun h => ?_⟩
  obtain ⟨out, ho⟩ := (C38_value_prints_iff h.1).mpr hp
  exact (C76_language_solid laws signs json_checks.1 json_checks.2.1 json_checks.2.2.1 json_checks.2.2.2 json_separable hord hz (by rw [ho]; simp)).mpr h

private theorem json_text {v : Val} (hv : HasTy jsonEnv (user "Value") v) : HasText v := by
  have h : (jsonTypes.all fun t => match t with
    | .leaf l => decide (l = .kwToken "null".toList ∨ l = .punct ",".toList ∨ l = .punct ":".toList ∨ ∃ k ∈ [LitKind.bool, .int, .float, .str], l = .lit k)
    | _ => true) = true := by decide +kernel
  refine formed_text (hasTy_formed hv) (allLeaves_mono ?_ v (hasTy_leaves (G := fun t => t ∈ jsonTypes) json_closed hv json_checks.2.2.1))
  intro l hl
  have := List.all_eq_true.mp h _ hl
  rw [decide_eq_true_eq] at this
  rcases this with rfl | rfl | rfl | ⟨k, _, rfl⟩
  · show IdentText "null".toList
    unfold IdentText; decide +kernel
  · exact op_text.2.2.2.1
  · exact op_text.2.2.2.2
  · trivial

/-- **C77.** Every `Value`, parsed or built by hand, without infinite floats, can be printed; its tokens are parsed as the same value again, and `from_str` of
`to_string` (both formats) gives it back, up to locations. -/
theorem C77_json_round_trip (laws : FloatLaws) (alternate : Bool) {v : Val} (hv : HasTy jsonEnv (user "Value") v) (hp : Printable v) :
    (∃ ts, v.toTokens = some ts ∧ Accepts jsonEnv (user "Value") ts v) ∧
      ∃ text w, display alternate v = some text ∧ AcceptsStr jsonEnv (user "Value") text w ∧ Alike v w := by
  obtain ⟨ts, ho⟩ := (C38_value_prints_iff hv).mpr hp
  exact ⟨⟨ts, ho, C12_solid laws json_checks.1 json_checks.2.1 json_checks.2.2.1 json_checks.2.2.2 hv ho⟩,
    C13_solid laws alternate json_checks.1 json_checks.2.1 json_checks.2.2.1 json_checks.2.2.2 hv (json_text hv) ho⟩

end

/-! ### the examples of README.md -/

section

/-- A stand-in for `f64` in this example only: the text of the literal. -/
@[reducible] def textExt : Ext := ⟨Text, fun t => some t, fun _ => true, id, fun _ => false⟩

/-- Comparison of the stand-ins. -/
def textCmp : FloatCmp Text := ⟨fun a b => decide (a = b), fun a => a.map Char.toNat⟩

attribute [local instance] textExt

private def ctor (x k : String) (vs : List Val) : Val := .node (.ctor x.toList k.toList) vs
private def tok (s : String) : Val := .leaf (.punct s.toList) (.mark [.callSite])
private def boolLit (b : Bool) : Val := .leaf (.lit .bool) (.lit (.bool b) .callSite)
private def strLit (s : String) : Val := .leaf (.lit .str) (.lit (.str s.toList) .callSite)
private def floatLit (s : String) : Val := .leaf (.lit .float) (.lit (.float s.toList) .callSite)
private def term (b : Bool) : Val := ctor "Term" "Literal" [boolLit b]

/-- README.md lines 209-235: the example parses, and the value is equal (`==`) to the one written there. -/
def boolExample : Bool :=
  match parseStr (parse boolEnv 60 (user "Expr")) "true & (false | true & true) & !false".toList with
  | .ok v => v.eq textCmp (ctor "Expr" "Conjunction" [ctor "Conjunction" "And" [term true, tok "&", ctor "Conjunction" "And" [
      ctor "Term" "Group" [.group .paren .callSite (ctor "Expr" "Or" [ctor "Conjunction" "Term" [term false], tok "|",
        ctor "Expr" "Conjunction" [ctor "Conjunction" "And" [term true, tok "&", ctor "Conjunction" "Term" [term true]]]])],
      tok "&", ctor "Conjunction" "Term" [ctor "Term" "Not" [tok "!", term false]]]]])
  | _ => false

theorem bool_example : boolExample = true := by decide +kernel

private def value (k : String) (v : Val) : Val := ctor "Value" k [v]
private def kv (k : String) (v : Val) : Val := ctor "KeyValue" "KeyValue" [strLit k, tok ":", v]
private def commas : List Val → List Val
  | [] => []
  | [v] => [v]
  | v :: vs => v :: tok "," :: commas vs
private def object (vs : List Val) : Val := value "Object" (.group .brace .callSite (.node .punctuated (commas vs)))
private def array (vs : List Val) : Val := value "Array" (.group .bracket .callSite (.node .punctuated (commas vs)))

private def li (s : String) : TT := .lit s.toList .callSite
private def str (s : String) : TT := .lit ('"' :: s.toList ++ ['"']) .callSite
private def word (s : String) : TT := .ident s.toList .callSite
private def pu (c : Char) : TT := .punct c .alone .callSite

/-- README.md lines 84-97: the tokens given to `parse_quote!`. -/
def jsonTokens : List TT :=
  [.group .brace [str "key1", pu ':', str "string value", pu ',', str "other key", pu ':', li "318", pu ',', str "recursive", pu ':',
    .group .bracket [li "1.6180", pu ',', li "2.7182", pu ',', li "3.1416", pu ',', word "null"] .callSite, pu ',',
    str "inner", pu ':', .group .brace [str "nested key", pu ':', word "true", pu ',', str "hard to write a parser", pu ':', word "false"] .callSite] .callSite]

/-- README.md lines 84-135: the example parses, and the value is equal (`==`) to the one written there. -/
def jsonExample : Bool :=
  match parse2 (parse jsonEnv 20 (user "Value")) jsonTokens with
  | .ok v => v.eq textCmp (object [kv "key1" (value "Str" (strLit "string value")), kv "other key" (value "Int" (.leaf (.lit .int) (.lit (.int 318) .callSite))),
      kv "recursive" (array [value "Float" (floatLit "1.6180"), value "Float" (floatLit "2.7182"), value "Float" (floatLit "3.1416"),
        value "Null" (.leaf (.kwToken "null".toList) (.mark [.callSite]))]),
      kv "inner" (object [kv "nested key" (value "Bool" (boolLit true)), kv "hard to write a parser" (value "Bool" (boolLit false))])])
  | _ => false

theorem json_example : jsonExample = true := by decide +kernel

end

section
attribute [local instance] signExt

/-- `[ 0x10, null ]` as a value, with the locations at which `from_str` finds it. -/
private def smallJson : Val := .node (.ctor "Value".toList "Array".toList) [.group .bracket ⟨⟨1, 0⟩, ⟨1, 14⟩⟩ (.node .punctuated [
  .node (.ctor "Value".toList "Int".toList) [.leaf (.lit .int) (.lit (.int 16) ⟨⟨1, 2⟩, ⟨1, 6⟩⟩)], .leaf (.punct ",".toList) (.mark [⟨⟨1, 6⟩, ⟨1, 7⟩⟩]),
  .node (.ctor "Value".toList "Null".toList) [.leaf (.kwToken "null".toList) (.mark [⟨⟨1, 8⟩, ⟨1, 12⟩⟩])]])]

private theorem small_typed : HasTy jsonEnv (user "Value") smallJson := by
  have hv : ∀ {k : String} {f : Fields Ty} {vs : List Val}, (⟨k.toList, f⟩ : VariantDef Ty) ∈ (match jsonEnv "Value".toList with | .enum vs => vs | _ => []) →
      HasTys jsonEnv (fieldTypes f) vs → HasTy jsonEnv (user "Value") (.node (.ctor "Value".toList k.toList) vs) := fun h hs => .enum rfl h hs
  refine hv (k := "Array") (f := _) (.tail _ (.tail _ (.tail _ (.tail _ (.tail _ (.head _)))))) (.cons (.bracket (.punctuated (n := 3) ?_)) .nil)
  refine .cons ?_ (.cons (.leaf (.punct rfl)) (.cons ?_ .nil))
  · exact hv (k := "Int") (.tail _ (.tail _ (.head _))) (.cons (.leaf (.int (by unfold InI64; omega))) .nil)
  · exact hv (k := "Null") (.head _) (.cons (.leaf .kwToken) .nil)

example : ∃ text w, display true smallJson = some text ∧ AcceptsStr jsonEnv (user "Value") text w ∧ Alike smallJson w :=
  (C77_json_round_trip signExt_laws true small_typed (by simp [Printable, PrintableL, smallJson, LitVal.Finite])).2

/-- The tokens of the text `[ 0x10, null ]` are ordinary, and stand for the value; so they are parsed as it. -/
example : ∃ ts, lex "[ 0x10, null ]".toList = some ts ∧ Accepts jsonEnv (user "Value") ts smallJson := by
  have hl : lex "[ 0x10, null ]".toList = some [.group .bracket [.lit "0x10".toList ⟨⟨1, 2⟩, ⟨1, 6⟩⟩, .punct ',' .alone ⟨⟨1, 6⟩, ⟨1, 7⟩⟩,
    .ident "null".toList ⟨⟨1, 8⟩, ⟨1, 12⟩⟩] ⟨⟨1, 0⟩, ⟨1, 14⟩⟩] := rfl
  refine ⟨_, hl, (C77_json signExt_laws signExt_signs (lexed_ordinary hl).1 (noMinusZero_of_B (by decide +kernel))
    (by simp [Printable, PrintableL, smallJson, LitVal.Finite])).mpr ⟨small_typed, ?_⟩⟩
  rw [dissolve_visible (lexed_ordinary hl).2]
  have hc : ∀ {v : Val} {vs : List Val} {t : TT} {ts : List TT}, Reads false v [t] → ReadsL false vs ts → ReadsL false (v :: vs) (t :: ts) :=
    fun {v vs t ts} h1 h2 => ⟨[t], ts, false, false, rfl, h1, h2, rfl⟩
  have hn : ReadsL false [] [] := ⟨rfl, rfl⟩
  refine hc ⟨_, [], false, by rw [List.append_nil], ?_, rfl⟩ hn
  refine hc (hc ⟨rfl, .lit (.int (neg := false) (n := 16) ?_)⟩ hn) (hc ⟨rfl, .punct .last⟩ (hc (hc ⟨rfl, .kwToken⟩ hn) hn))
  exact .plain (.here (by simp)) ((readNat_iff _ _).mp (by decide))

end

section
attribute [local instance] toyExt

/-- `! true & ( false )`, made of tokens with arbitrary locations, is a sentence; the operator may be marked as joined to what follows. -/
private def sentence : List TT := [.punct '!' .joint spA, .ident "true".toList spA, .punct '&' .alone spA, .group .paren [.ident "false".toList spA] spA]

private theorem is_sentence : IsExpr (dissolve sentence) :=
  .one (.and (a := [.punct '!' .joint spA, .ident "true".toList spA]) (.not (.lit (b := true)))
    (.one (.group (.one (.one (.lit (b := false)))))))

example : ∃ v, Accepts boolEnv (user "Expr") sentence v ∧ HasTy boolEnv (user "Expr") v ∧ ∃ w, Accepts iterEnv (user "Expr") sentence w := by
  obtain ⟨v, hv⟩ := C77_bool_sentences.mpr is_sentence
  exact ⟨v, hv, (C76_sound hv).1, C77_rewrite.mp ⟨v, hv⟩⟩

end

end Parsel
