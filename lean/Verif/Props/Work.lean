import Verif.Proofs.Cost
import Verif.Proofs.LL1
import Verif.Spec.Readme
import Verif.Props.Termination

/-! C74: the resources that a parse takes. -/

namespace Parsel
open Spec

section
variable [Ext]

/-! ### the calls -/

/-- **C74** (what `calls` means). The outcome of an implementation depends on the listed calls only: if the implementations of the types are replaced by ones
that do the same at these calls, the outcome and the calls are the same. -/
theorem C74_calls_suffice {env : Env} {P Q : Ty → Parser Val} {k : Nat} {t : Ty} {s : PState} (hne : parseWith env P k t s ≠ .oof)
    (h : ∀ c ∈ calls P env k t s, Q c.1 c.2 = P c.1 c.2) :
    parseWith env Q k t s = parseWith env P k t s ∧ calls Q env k t s = calls P env k t s := by
  have h1 : exec P k (body env t) s ≠ .oof := by
    rw [← parseWith_core]
    intro hc
    cases hp : parseWith env P k t s <;> rw [hp] at hc <;> first | exact hne hp | cases hc
  rw [calls_core] at h
  obtain ⟨h2, h3⟩ := exec_agree (Nat.le_refl k) _ _ h1 h
  refine ⟨map_single_inj ?_, ?_⟩
  · rw [parseWith_core, parseWith_core, h2]
  · rw [calls_core, calls_core, h3]

/-- **C74** (what `calls` means). Each of the listed calls is made: the implementation does not return if one of them does not. -/
theorem C74_calls_needed {env : Env} {P : Ty → Parser Val} {k : Nat} {t : Ty} {s : PState} {c : Call} (hc : c ∈ calls P env k t s)
    (h : P c.1 c.2 = .oof) : parseWith env P k t s = .oof := by
  rw [calls_core] at hc
  have := exec_stuck _ _ _ hc h
  rw [← parseWith_core] at this
  cases hp : parseWith env P k t s <;> rw [hp] at this <;> first | rfl | cases this

/-- **C74** (what `calls` means). `parse` consists of these implementations. -/
theorem C74_calls_parse (env : Env) (n : Nat) (t : Ty) (s : PState) : parse env (n + 1) t s = parseWith env (parse env n) n t s :=
  parse_with env n t s

/-- **C74.** Work and depth of a parse that ends are determined by type and position. -/
theorem C74_determined {env : Env} {t : Ty} {s : PState} :
    (∀ {k k'}, Works env t s k → Works env t s k' → k = k') ∧ ∀ {k k'}, Nests env t s k → Nests env t s k' → k = k' := by
  refine ⟨?_, ?_⟩
  · rintro k k' ⟨n, h1, h2⟩ ⟨m, h3, h4⟩
    rcases Nat.le_total n m with h | h
    · rw [← h2, ← h4, work_stable h h1]
    · rw [← h2, ← h4, work_stable h h3]
  · rintro k k' ⟨n, h1, h2⟩ ⟨m, h3, h4⟩
    rcases Nat.le_total n m with h | h
    · rw [← h2, ← h4, depth_stable h h1]
    · rw [← h2, ← h4, depth_stable h h3]

/-! ### depth -/

/-- **C74.** A finite grammar without left recursion: the implementations that run are nested at most as deep as the number of types times the number of
tokens (plus one) — whether the parse succeeds, fails, or loops. -/
theorem C74_depth {env : Env} {G : List Ty} (closed : ∀ t ∈ G, ∀ u, PartOf env u t → u ∈ G)
    (noLeftRecursion : ∀ t ∈ G, ¬ Chain (StartsWith env) t t) {t : Ty} (ht : t ∈ G) (n : Nat) (s : PState) :
    depth env n t s ≤ (TT.sizes s.cur + 1) * G.length := by
  have hpos : 0 < G.length := List.length_pos_of_mem ht
  have hW : ∀ t, t ∈ G → ChainsLe (StartsWith env) (G.length - 1) t := fun t ht =>
    chainsLe_of_closed (fun a ha b hb => closed a ha b (startsWith_partOf hb)) noLeftRecursion ht
  have := depth_bound (G := (· ∈ G)) closed hW n (G.length - 1) t s ht (hW t ht)
  rw [show G.length - 1 + 1 = G.length from by omega] at this
  rw [Nat.add_mul, Nat.one_mul]
  omega

/-- **C74.** If types contain themselves through delimited groups only, the nesting is bounded by the nesting of delimiters: repetitions and the operator
types do not recurse. -/
theorem C74_depth_delimiters {env : Env} {G : List Ty} (closed : ∀ t ∈ G, ∀ u, PartOf env u t → u ∈ G)
    (noRecursion : ∀ t ∈ G, ¬ Chain (Beside env) t t) {t : Ty} (ht : t ∈ G) (n : Nat) (s : PState) :
    depth env n t s ≤ (nest s.cur + 1) * G.length := by
  have hpos : 0 < G.length := List.length_pos_of_mem ht
  have hW : ∀ t, t ∈ G → ChainsLe (Beside env) (G.length - 1) t := fun t ht =>
    chainsLe_of_closed (fun a ha b hb => closed a ha b hb.1) noRecursion ht
  have := depth_nest (G := (· ∈ G)) closed hW n (G.length - 1) t s ht (hW t ht)
  rw [show G.length - 1 + 1 = G.length from by omega] at this
  rw [Nat.add_mul, Nat.one_mul]
  omega

end

/-! ### the grammars of README.md -/

/-- The types of the grammars. -/
def jsonTypes : List Ty := typesFrom jsonEnv 4 [.named "Value".toList]
def boolTypes : List Ty := typesFrom boolEnv 8 [.named "Expr".toList]
def iterTypes : List Ty := typesFrom iterEnv 8 [.named "Expr".toList]

/-- Closed under parts. -/
theorem closed_of {env : Env} {G : List Ty} (h : (G.all fun t => (partsList env t).all fun u => decide (u ∈ G)) = true) :
    ∀ t ∈ G, ∀ u, PartOf env u t → u ∈ G := by
  intro t ht u hu
  have := List.all_eq_true.mp h t ht
  have := List.all_eq_true.mp this u (partOf_list hu)
  exact of_decide_eq_true this

/-- Whether it is a group. -/
def isGroup : Ty → Bool
  | .paren _ | .bracket _ | .brace _ => true
  | _ => false

theorem beside_list {env : Env} {t u : Ty} (h : Beside env t u) : u ∈ partsList env t ∧ isGroup t = false := by
  refine ⟨partOf_list h.1, ?_⟩
  cases t <;> first | rfl | exact absurd rfl (h.2 _).1 | exact absurd rfl (h.2 _).2.1 | exact absurd rfl (h.2 _).2.2

/-- A number that goes down along a relation. -/
theorem no_chain {α : Type} {r : α → α → Prop} {G : List α} (closed : ∀ a ∈ G, ∀ b, r a b → b ∈ G) (rank : α → Nat)
    (h : ∀ a ∈ G, ∀ b, r a b → rank b < rank a) : ∀ a ∈ G, ¬ Chain r a a := by
  have key : ∀ {a b}, Chain r a b → a ∈ G → rank b < rank a := by
    intro a b hc
    induction hc with
    | one hr => exact fun ha => h _ ha _ hr
    | more hr _ ih => exact fun ha => Nat.lt_trans (ih (closed _ ha _ hr)) (h _ ha _ hr)
  exact fun a ha hc => absurd (key hc ha) (Nat.lt_irrefl _)

theorem no_beside {env : Env} {G : List Ty} (closed : ∀ t ∈ G, ∀ u, PartOf env u t → u ∈ G) (rank : Ty → Nat)
    (h : (G.all fun t => isGroup t || (partsList env t).all fun u => decide (rank u < rank t)) = true) : ∀ t ∈ G, ¬ Chain (Beside env) t t := by
  refine no_chain (fun a ha b hb => closed a ha b hb.1) rank fun t ht u hu => ?_
  obtain ⟨h1, h2⟩ := beside_list hu
  have := List.all_eq_true.mp h t ht
  rw [h2, Bool.false_or] at this
  exact of_decide_eq_true (List.all_eq_true.mp this u h1)

theorem json_closed : ∀ t ∈ jsonTypes, ∀ u, PartOf jsonEnv u t → u ∈ jsonTypes := closed_of (by decide +kernel)
theorem bool_closed : ∀ t ∈ boolTypes, ∀ u, PartOf boolEnv u t → u ∈ boolTypes := closed_of (by decide +kernel)
theorem iter_closed : ∀ t ∈ iterTypes, ∀ u, PartOf iterEnv u t → u ∈ iterTypes := closed_of (by decide +kernel)

/-- Goes down beside each other. -/
def jsonRank : Ty → Nat
  | .leaf _ => 0
  | .named x => if x = "Value".toList then 2 else 3
  | .punctuated _ _ => 4
  | _ => 1

def iterRank : Ty → Nat
  | .leaf _ => 0
  | .named x => if x = "Expr".toList then 5 else if x = "Term".toList then 2 else 1
  | .rightAssoc _ (.rightAssoc _ _) => 4
  | .rightAssoc _ _ => 3
  | .boxed _ => 6
  | .any _ => 1
  | _ => 0

theorem json_no_beside : ∀ t ∈ jsonTypes, ¬ Chain (Beside jsonEnv) t t := no_beside json_closed jsonRank (by decide +kernel)
theorem iter_no_beside : ∀ t ∈ iterTypes, ¬ Chain (Beside iterEnv) t t := no_beside iter_closed iterRank (by decide +kernel)

section
variable [Ext]

/-- **C74.** The JSON-like language of README.md: the depth is proportional to the nesting of brackets and braces of the input, on every input. -/
theorem C74_json_depth (n : Nat) (s : PState) : depth jsonEnv n (user "Value") s ≤ 13 * (nest s.cur + 1) := by
  have := C74_depth_delimiters json_closed json_no_beside (t := user "Value") (by decide +kernel) n s
  rw [show jsonTypes.length = 13 from by decide +kernel] at this
  omega

/-- **C74.** The Boolean language, written with `RightAssoc` and `Any`: likewise. -/
theorem C74_iter_depth (n : Nat) (s : PState) : depth iterEnv n (user "Expr") s ≤ 12 * (nest s.cur + 1) := by
  have := C74_depth_delimiters iter_closed iter_no_beside (t := user "Expr") (by decide +kernel) n s
  rw [show iterTypes.length = 12 from by decide +kernel] at this
  omega

/-! ### work -/

/-- `true`. -/
theorem true_done (env : Env) (sp : Span) (rest : List TT) (sc : Span) (u : Option Span) :
    Done env (.leaf (.lit .bool)) ⟨.ident "true".toList sp :: rest, sc, u⟩ (some (.leaf (.lit .bool) (.lit (.bool true) sp), ⟨rest, sc, u⟩)) 1 :=
  .leaf (o := some (.lit (.bool true) sp, ⟨rest, sc, u⟩)) rfl

/-- No Boolean before a group. -/
theorem bool_fails (env : Env) (d : Delim) (hd : d ≠ .none) (ts : List TT) (sp : Span) (rest : List TT) (sc : Span) (u : Option Span) :
    Done env (.leaf (.lit .bool)) ⟨.group d ts sp :: rest, sc, u⟩ none 1 :=
  .leaf (o := none) (by cases d <;> first | exact absurd rfl hd | exact ⟨_, rfl⟩)

/-- No operator there. -/
theorem op_fails {env : Env} {o : String} {s : PState} (h : ∃ e, leafParse (.punct o.toList) s = .err e) : Done env (op o) s none 1 :=
  .leaf (o := none) h

/-- From the work of `Term` to that of `Conjunction`, at the end of a group. -/
theorem bool_conj {ts : List TT} {k : Nat} {sc : Span} (h : ∀ u, ∃ v u', Done boolEnv (user "Term") ⟨ts, sc, u⟩ (some (v, ⟨[], sc, u'⟩)) k) (u : Option Span) :
    ∃ v u', Done boolEnv (user "Conjunction") ⟨ts, sc, u⟩ (some (v, ⟨[], sc, u'⟩)) (2 + 2 * k) := by
  obtain ⟨v, u', h⟩ := h none
  have h1 : SeqDone boolEnv [user "Term", op "&", .boxed (user "Conjunction")] ⟨ts, sc, none⟩ none (k + 1) :=
    SeqDone.later h (SeqDone.fail (op_fails ⟨_, rfl⟩))
  have h2 : SeqDone boolEnv [user "Term"] ⟨ts, sc, none⟩ (some ([v], ⟨[], sc, u'⟩)) k := SeqDone.one h
  have := AltDone.done (env := boolEnv) (x := "Conjunction".toList) rfl (AltDone.later (s := ⟨ts, sc, u⟩) h1 (AltDone.here h2))
  rw [show k + 1 + k + 1 = 2 + 2 * k from by omega] at this
  exact ⟨_, _, this⟩

/-- From the work of `Conjunction` to that of `Expr`, at the end of a group. -/
theorem bool_expr {ts : List TT} {k : Nat} {sc : Span} (h : ∀ u, ∃ v u', Done boolEnv (user "Conjunction") ⟨ts, sc, u⟩ (some (v, ⟨[], sc, u'⟩)) k)
    (u : Option Span) : ∃ v u', Done boolEnv (user "Expr") ⟨ts, sc, u⟩ (some (v, ⟨[], sc, u'⟩)) (2 + 2 * k) := by
  obtain ⟨v, u', h⟩ := h none
  have h1 : SeqDone boolEnv [user "Conjunction", op "|", .boxed (user "Expr")] ⟨ts, sc, none⟩ none (k + 1) :=
    SeqDone.later h (SeqDone.fail (op_fails ⟨_, rfl⟩))
  have h2 : SeqDone boolEnv [user "Conjunction"] ⟨ts, sc, none⟩ (some ([v], ⟨[], sc, u'⟩)) k := SeqDone.one h
  have := AltDone.done (env := boolEnv) (x := "Expr".toList) rfl (AltDone.later (s := ⟨ts, sc, u⟩) h1 (AltDone.here h2))
  rw [show k + 1 + k + 1 = 2 + 2 * k from by omega] at this
  exact ⟨_, _, this⟩

theorem bool_term : ∀ {d : Nat} {ts : List TT}, Parens d ts → ∃ k, 3 * k + 11 = 17 * 4 ^ d ∧ ∀ (sc : Span) (u : Option Span), ∃ v u',
    Done boolEnv (user "Term") ⟨ts, sc, u⟩ (some (v, ⟨[], sc, u'⟩)) k := by
  intro d ts h
  induction h with
  | @zero sp =>
    refine ⟨2, rfl, fun sc u => ?_⟩
    have := AltDone.done (env := boolEnv) (x := "Term".toList) rfl
      (AltDone.here (s := ⟨[.ident "true".toList sp], sc, u⟩) (SeqDone.one (true_done boolEnv sp [] sc none)))
    exact ⟨_, _, this⟩
  | @succ d ts sp _ ih =>
    obtain ⟨k, hk, ih⟩ := ih
    refine ⟨11 + 4 * k, by rw [Nat.pow_succ]; omega, fun sc u => ?_⟩
    obtain ⟨v, u', h⟩ := bool_expr (bool_conj (ih sp.closeOf)) none
    have h1 : SeqDone boolEnv [.leaf (.lit .bool)] ⟨[.group .paren ts sp], sc, none⟩ none 1 := SeqDone.fail (bool_fails _ _ (by decide) _ _ _ _ _)
    have h2 : SeqDone boolEnv [op "!", .boxed (user "Term")] ⟨[.group .paren ts sp], sc, none⟩ none 1 := SeqDone.fail (op_fails ⟨_, rfl⟩)
    have h3 : SeqDone boolEnv [.paren (.boxed (user "Expr"))] ⟨[.group .paren ts sp], sc, none⟩ _ _ :=
      SeqDone.one (Done.paren (s := ⟨[.group .paren ts sp], sc, none⟩) (inner := ts) (sp := sp) (rest := []) rfl (Done.boxed h))
    have := AltDone.done (env := boolEnv) (x := "Term".toList) rfl (AltDone.later (s := ⟨[.group .paren ts sp], sc, u⟩) h1 (AltDone.later h2 (AltDone.here h3)))
    rw [show 1 + (1 + (2 + 2 * (2 + 2 * k) + 1 + 1)) + 1 = 11 + 4 * k from by omega] at this
    exact ⟨_, _, this⟩

/-- **C74.** The Boolean language of README.md takes exponential time in the nesting of parentheses: each pair of parentheses multiplies the work by four,
because the first alternatives of `Expr` and `Conjunction` parse what is in the parentheses, fail at the missing operator, and the second alternatives parse
it again. -/
theorem C74_exponential {d : Nat} {s : PState} (h : Parens d s.cur) : ∃ k, Works boolEnv (user "Expr") s k ∧ 3 * k + 26 = 68 * 4 ^ d := by
  obtain ⟨k, hk, ht⟩ := bool_term h
  obtain ⟨v, u', hd⟩ := bool_expr (bool_conj (ht s.scope)) s.unexp
  exact ⟨_, hd.works, by omega⟩

theorem iter_expr : ∀ {d : Nat} {ts : List TT}, Parens d ts → ∀ (sc : Span) (u : Option Span), ∃ v u',
    Done iterEnv (user "Expr") ⟨ts, sc, u⟩ (some (v, ⟨[], sc, u'⟩)) (12 * d + 10) := by
  have wrap : ∀ {ts : List TT} {k : Nat} {sc : Span} {u : Option Span}, (∃ e, leafParse (.punct "!".toList) ⟨ts, sc, none⟩ = .err e) →
      (∃ v u', Done iterEnv (user "Atom") ⟨ts, sc, u⟩ (some (v, ⟨[], sc, u'⟩)) k) →
      ∃ v u', Done iterEnv (user "Expr") ⟨ts, sc, u⟩ (some (v, ⟨[], sc, u'⟩)) (k + 8) := by
    rintro ts k sc u hn ⟨v, u', h⟩
    have h1 : Done iterEnv (.any (op "!")) ⟨ts, sc, u⟩ _ _ := Done.any_stop (op_fails hn)
    have h2 : Done iterEnv (user "Term") ⟨ts, sc, u⟩ _ _ := SeqDone.struct (x := "Term".toList) rfl (SeqDone.cons h1 (SeqDone.one h))
    have h3 : Done iterEnv (.rightAssoc (op "&") (user "Term")) ⟨ts, sc, u⟩ _ _ := Done.rightAssoc h2 (PairDone.stop (op_fails ⟨_, rfl⟩))
    have h4 : Done iterEnv (.rightAssoc (op "|") (.rightAssoc (op "&") (user "Term"))) ⟨ts, sc, u⟩ _ _ :=
      Done.rightAssoc h3 (PairDone.stop (op_fails ⟨_, rfl⟩))
    have := SeqDone.struct (env := iterEnv) (x := "Expr".toList) rfl (SeqDone.one h4)
    rw [show 1 + 1 + k + 1 + 1 + 1 + 1 + 1 + 1 = k + 8 from by omega] at this
    exact ⟨_, _, this⟩
  intro d ts h
  induction h with
  | @zero sp =>
    intro sc u
    have := AltDone.done (env := iterEnv) (x := "Atom".toList) rfl
      (AltDone.here (s := ⟨[.ident "true".toList sp], sc, u⟩) (SeqDone.one (true_done iterEnv sp [] sc none)))
    exact wrap ⟨_, rfl⟩ ⟨_, _, this⟩
  | @succ d ts sp _ ih =>
    intro sc u
    obtain ⟨v, u', h⟩ := ih sp.closeOf none
    have h1 : SeqDone iterEnv [.leaf (.lit .bool)] ⟨[.group .paren ts sp], sc, none⟩ none 1 := SeqDone.fail (bool_fails _ _ (by decide) _ _ _ _ _)
    have h3 : SeqDone iterEnv [.paren (.boxed (user "Expr"))] ⟨[.group .paren ts sp], sc, none⟩ _ _ :=
      SeqDone.one (Done.paren (s := ⟨[.group .paren ts sp], sc, none⟩) (inner := ts) (sp := sp) (rest := []) rfl (Done.boxed h))
    have h4 := AltDone.done (env := iterEnv) (x := "Atom".toList) rfl (AltDone.later (s := ⟨[.group .paren ts sp], sc, u⟩) h1 (AltDone.here h3))
    obtain ⟨w, u'', h5⟩ := wrap (ts := [.group .paren ts sp]) (sc := sc) (u := u) ⟨_, rfl⟩ ⟨_, _, h4⟩
    refine ⟨w, u'', ?_⟩
    rw [show 1 + (12 * d + 10 + 1 + 1) + 1 + 8 = 12 * (d + 1) + 10 from by omega] at h5
    exact h5

/-- **C74.** Written with `RightAssoc` and `Any`, it takes linear time there. -/
theorem C74_iter_linear {d : Nat} {s : PState} (h : Parens d s.cur) : Works iterEnv (user "Expr") s (12 * d + 10) := by
  obtain ⟨v, u', hd⟩ := iter_expr h s.scope s.unexp
  exact hd.works

/-- A call is nested in its caller. -/
theorem depth_call {env : Env} {n : Nat} {t : Ty} {s : PState} {c : Call} (h : c ∈ calls (parse env n) env n t s) :
    depth env n c.1 c.2 < depth env (n + 1) t s := by
  have := le_foldr_max (f := fun c : Call => depth env n c.1 c.2) h
  simp only [depth]
  omega

/-- `true` as a conjunction, before an operator. -/
theorem bool_operand (sp sp' : Span) (ts : List TT) (sc : Span) (u : Option Span) : ∃ v u',
    Done boolEnv (user "Conjunction") ⟨.ident "true".toList sp :: .punct '|' .alone sp' :: ts, sc, u⟩ (some (v, ⟨.punct '|' .alone sp' :: ts, sc, u'⟩)) 6 := by
  have ht := AltDone.done (env := boolEnv) (x := "Term".toList) rfl
    (AltDone.here (s := ⟨.ident "true".toList sp :: .punct '|' .alone sp' :: ts, sc, none⟩) (SeqDone.one (true_done boolEnv sp (.punct '|' .alone sp' :: ts) sc none)))
  have h1 : SeqDone boolEnv [user "Term", op "&", .boxed (user "Conjunction")] ⟨.ident "true".toList sp :: .punct '|' .alone sp' :: ts, sc, none⟩ none (2 + 1) :=
    SeqDone.later ht (SeqDone.fail (op_fails ⟨_, rfl⟩))
  have h2 := SeqDone.one ht
  have := AltDone.done (env := boolEnv) (x := "Conjunction".toList) rfl
    (AltDone.later (s := ⟨.ident "true".toList sp :: .punct '|' .alone sp' :: ts, sc, u⟩) h1 (AltDone.here h2))
  exact ⟨_, _, this⟩

theorem ors_deep : ∀ {m : Nat} {ts : List TT}, Ors m ts → ∀ (sc : Span) (u : Option Span),
    (∃ v u' k, Done boolEnv (user "Expr") ⟨ts, sc, u⟩ (some (v, ⟨[], sc, u'⟩)) k) ∧
    Eventually fun n => 2 * m < depth boolEnv n (user "Expr") ⟨ts, sc, u⟩ := by
  intro m ts h
  induction h with
  | @zero sp =>
    intro sc u
    refine ⟨?_, ⟨1, fun n hn => ?_⟩⟩
    · obtain ⟨k, _, h⟩ := bool_term (Parens.zero (sp := sp))
      obtain ⟨v, u', h⟩ := bool_expr (bool_conj (h sc)) u
      exact ⟨v, u', _, h⟩
    · obtain ⟨n, rfl⟩ : ∃ m, n = m + 1 := ⟨n - 1, by omega⟩
      simp only [depth]; omega
  | @succ m ts sp sp' _ ih =>
    intro sc u
    obtain ⟨v, u', h1⟩ := bool_operand sp sp' ts sc none
    have h2 : Done boolEnv (op "|") ⟨.punct '|' .alone sp' :: ts, sc, u'⟩ (some (.leaf (.punct "|".toList) (.mark [sp']), ⟨ts, sc, u'⟩)) 1 :=
      .leaf (o := some (.mark [sp'], ⟨ts, sc, u'⟩)) rfl
    obtain ⟨⟨w, u'', k, h3⟩, h4⟩ := ih sc u'
    refine ⟨?_, ?_⟩
    · have := AltDone.done (env := boolEnv) (x := "Expr".toList) rfl (AltDone.here (s := ⟨.ident "true".toList sp :: .punct '|' .alone sp' :: ts, sc, u⟩)
        (SeqDone.cons h1 (SeqDone.cons h2 (SeqDone.one (Done.boxed h3)))))
      exact ⟨_, _, _, this⟩
    · have h4' : Eventually fun n => 2 * m + 1 < depth boolEnv n (.boxed (user "Expr")) ⟨ts, sc, u'⟩ := h4.step fun n hn => by
        have := depth_call (env := boolEnv) (n := n) (t := .boxed (user "Expr")) (s := ⟨ts, sc, u'⟩) (c := (user "Expr", ⟨ts, sc, u'⟩)) (.head _)
        simp only at this
        omega
      refine ((h1.and h2).and h4').step fun n hn => ?_
      obtain ⟨⟨⟨e1, _⟩, e2, _⟩, e3⟩ := hn
      have e1 : parse boolEnv n (user "Conjunction") _ = .ok _ _ := e1
      have e2 : parse boolEnv n (op "|") _ = .ok _ _ := e2
      have hc : ((.boxed (user "Expr"), ⟨ts, sc, u'⟩) : Call) ∈
          seqCalls (parse boolEnv n) [user "Conjunction", op "|", .boxed (user "Expr")] ⟨.ident "true".toList sp :: .punct '|' .alone sp' :: ts, sc, none⟩ := by
        simp only [seqCalls, e1, e2]
        simp
      have := depth_call (env := boolEnv) (n := n) (t := user "Expr") (s := ⟨.ident "true".toList sp :: .punct '|' .alone sp' :: ts, sc, u⟩)
        (c := (.boxed (user "Expr"), ⟨ts, sc, u'⟩)) (List.mem_append_left _ hc)
      simp only at this
      omega

/-- **C74** (README: "has the advantage of recursing less"). The right-recursive grammar nests at least two implementations per operator ... -/
theorem C74_right_recursion {m : Nat} {s : PState} (h : Ors m s.cur) : ∃ k, Nests boolEnv (user "Expr") s k ∧ 2 * m < k := by
  obtain ⟨⟨v, u', k, h1⟩, h2⟩ := ors_deep h s.scope s.unexp
  obtain ⟨N, hN⟩ := h1.and h2
  obtain ⟨⟨h3, _⟩, h4⟩ := hN N (Nat.le_refl _)
  exact ⟨_, ⟨N, by rw [show parse boolEnv N _ _ = .ok _ _ from h3]; simp, rfl⟩, h4⟩

theorem ors_nest {m : Nat} {ts : List TT} (h : Ors m ts) : nest ts = 0 := by
  induction h with
  | zero => rfl
  | succ _ ih => simp only [nest, nestT, ih]; rfl

/-- **C74** ... and with `RightAssoc` the nesting is the same for any number of operators. -/
theorem C74_right_assoc {m : Nat} {s : PState} (h : Ors m s.cur) (n : Nat) : depth iterEnv n (user "Expr") s ≤ 12 := by
  have := C74_iter_depth n s
  rw [ors_nest h] at this
  omega

end

/-! ### examples -/

/-- The boolean grammar is not left-recursive: depth is linear in the size of the input. -/
def boolRank : Ty → Nat
  | .leaf _ => 0
  | .named x => if x = "Expr".toList then 4 else if x = "Conjunction".toList then 3 else 2
  | .boxed _ => 5
  | _ => 1

theorem Parens.exists : ∀ d, ∃ ts, Parens d ts
  | 0 => ⟨_, .zero (sp := .callSite)⟩
  | d + 1 => let ⟨_, h⟩ := Parens.exists d; ⟨_, .succ (sp := .callSite) h⟩

theorem Ors.exists : ∀ m, ∃ ts, Ors m ts
  | 0 => ⟨_, .zero (sp := .callSite)⟩
  | m + 1 => let ⟨_, h⟩ := Ors.exists m; ⟨_, .succ (sp := .callSite) (sp' := .callSite) h⟩

section
attribute [local instance] toyExt

/-- Five pairs of parentheses: 23202 implementations run, against 70. -/
example : ∃ ts, Works boolEnv (user "Expr") ⟨ts, .callSite, none⟩ 23202 ∧ Works iterEnv (user "Expr") ⟨ts, .callSite, none⟩ 70 := by
  obtain ⟨ts, h⟩ := Parens.exists 5
  obtain ⟨k, h1, h2⟩ := C74_exponential (s := ⟨ts, .callSite, none⟩) h
  obtain rfl : k = 23202 := by omega
  exact ⟨ts, h1, C74_iter_linear (s := ⟨ts, .callSite, none⟩) h⟩

/-- `true | true | ... | true` with a hundred operators: more than two hundred implementations nested, against at most twelve however many operators there are. -/
example : ∃ ts k, Nests boolEnv (user "Expr") ⟨ts, .callSite, none⟩ k ∧ 200 < k ∧ ∀ n, depth iterEnv n (user "Expr") ⟨ts, .callSite, none⟩ ≤ 12 := by
  obtain ⟨ts, h⟩ := Ors.exists 100
  obtain ⟨k, h1, h2⟩ := C74_right_recursion (s := ⟨ts, .callSite, none⟩) h
  exact ⟨ts, k, h1, h2, C74_right_assoc (s := ⟨ts, .callSite, none⟩) h⟩

end

end Parsel
