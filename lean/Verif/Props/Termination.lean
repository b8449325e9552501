import Verif.Proofs.Diverge
import Verif.Props.Grammar

/-! Termination (C29) and non-termination (C30). -/

namespace Parsel
open Spec

section
variable [Ext]

/-! ### C29 -/

/-- **C29.** A finite grammar `G` (a list of types that contains the parts of its types) without left recursion and without repetitions whose rounds can be
empty: parsing any of its types ends, with a value or an error, on every input, at every position. -/
theorem C29_terminates {env : Env} {G : List Ty} (closed : ∀ t ∈ G, ∀ u, PartOf env u t → u ∈ G)
    (noLeftRecursion : ∀ t ∈ G, ¬ Chain (StartsWith env) t t) (rounds : ∀ t ∈ G, RoundsRead env t)
    {t : Ty} (ht : t ∈ G) {s : PState} (hs : Readable s.cur) : Halts env t s :=
  halts_of_finishes hs (finishes_of_grammar closed noLeftRecursion rounds ht s)

/-- **C29** for whole streams: `parse2` returns `Ok` or `Err`. -/
theorem C29_terminates_parse2 {env : Env} {G : List Ty} (closed : ∀ t ∈ G, ∀ u, PartOf env u t → u ∈ G)
    (noLeftRecursion : ∀ t ∈ G, ¬ Chain (StartsWith env) t t) (rounds : ∀ t ∈ G, RoundsRead env t)
    {t : Ty} (ht : t ∈ G) {ts : List TT} (hs : Readable ts) : (∃ v, Accepts env t ts v) ∨ ∃ e, Rejects env t ts e := by
  rcases C29_terminates closed noLeftRecursion rounds ht (s := ⟨ts, .callSite, none⟩) hs with ⟨v, s', n, h⟩ | ⟨e, n, h⟩
  · cases h1 : s'.unexp with
    | some sp => exact .inr ⟨_, n, by simp only [parse2, h, h1]; rfl⟩
    | none =>
      cases h2 : unexpectedSpan s'.cur with
      | some sp => exact .inr ⟨_, n, by simp only [parse2, h, h1, h2]; rfl⟩
      | none => exact .inl ⟨v, n, by simp only [parse2, h, h1, h2]⟩
  · exact .inr ⟨e, n, by simp only [parse2, h]⟩

omit [Ext] in
/-- A way to see that there is no left recursion: a number for each type that goes down. -/
theorem no_left_recursion {env : Env} {G : List Ty} (closed : ∀ t ∈ G, ∀ u, PartOf env u t → u ∈ G) (rank : Ty → Nat)
    (h : ∀ t ∈ G, ∀ u, StartsWith env t u → rank u < rank t) : ∀ t ∈ G, ¬ Chain (StartsWith env) t t := by
  have key : ∀ {t u}, Chain (StartsWith env) t u → t ∈ G → rank u < rank t := by
    intro t u hc
    induction hc with
    | one hr => exact fun ht => h _ ht _ hr
    | more hr _ ih => exact fun ht => Nat.lt_trans (ih (closed _ ht _ (startsWith_partOf hr))) (h _ ht _ hr)
  exact fun t ht hc => absurd (key hc ht) (Nat.lt_irrefl _)

/-! ### C30 -/

/-- **C30.** A type that, by a chain of first things parsed, comes back to itself (left recursion in the first alternative) does not terminate on any
input. -/
theorem C30_left_recursion {env : Env} {t : Ty} (h : Chain (FirstParses env) t t) (s : PState) : Diverges env t s := by
  intro n
  refine runs_diverges (fun u _ => u = t ∨ Chain (FirstParses env) u t) ?_ n (.inl rfl)
  intro u s hu
  have hu : Chain (FirstParses env) u t := by
    rcases hu with rfl | hu
    · exact h
    · exact hu
  obtain ⟨c, h1, h2⟩ := chain_last hu
  obtain ⟨s', hr⟩ := firstParses_runs h1 s
  exact ⟨c, s', h2, hr⟩

/-- **C30**, for left recursion anywhere: if each situation (type and position) out of a set certainly runs into another one out of the set, no parse from
any of them terminates. -/
theorem C30_cycle {env : Env} (R : Ty → PState → Prop) (h : ∀ t s, R t s → ∃ u s', R u s' ∧ Runs env t s u s') {t : Ty} {s : PState} (hr : R t s) :
    Diverges env t s := fun n => runs_diverges R h n hr

/-- **C30.** A user type whose first alternative starts with the type itself, boxed — the natural transcription of a left-recursive production — does not
terminate on any input. -/
theorem C30_left_recursive_enum {env : Env} {x : Text} {v : VariantDef Ty} {vs : List (VariantDef Ty)} {rest : List Ty} (he : env x = .enum (v :: vs))
    (hf : fieldTypes v.fields = .boxed (.named x) :: rest) (s : PState) : Diverges env (.named x) s :=
  C30_left_recursion (.more (.enum he hf) (.one .boxed)) s

/-- **C30.** ... in a later alternative it does not terminate on the inputs on which all earlier alternatives fail. -/
theorem C30_left_recursive_later {env : Env} {x : Text} {before : List (VariantDef Ty)} {v : VariantDef Ty} {after : List (VariantDef Ty)} {rest : List Ty}
    (he : env x = .enum (before ++ v :: after)) (hf : fieldTypes v.fields = .boxed (.named x) :: rest) {s : PState}
    (hb : ∀ w ∈ before, SeqFails env (fieldTypes w.fields) s.fork) : Diverges env (.named x) s := by
  refine C30_cycle (fun t s' => (t = .named x ∨ t = .boxed (.named x)) ∧ s'.fork = s.fork) ?_ ⟨.inl rfl, rfl⟩
  rintro t s1 ⟨rfl | rfl, hs⟩
  · refine ⟨.boxed (.named x), s1.fork, ⟨.inr rfl, hs⟩, .enum he ?_ ⟨[], rest, hf, .nil⟩⟩
    rw [hs]; exact hb
  · exact ⟨.named x, s1, ⟨.inl rfl, hs⟩, .boxed⟩

/-- **C30.** `Any<T>` does not terminate where `T` succeeds without reading anything. -/
theorem C30_any {env : Env} {t : Ty} {s : PState} (h : Idles env t s) : Diverges env (.any t) s := any_diverges h

/-- **C30.** `Punctuated<T, P>` does not terminate where, before the end of the input, `T` and `P` succeed without reading anything. -/
theorem C30_punctuated {env : Env} {t p : Ty} {s : PState} (hne : s.cur ≠ []) (ht : Idles env t s) (hp : Idles env p s) :
    Diverges env (.punctuated t p) s := punctuated_diverges hne ht hp

/-- **C30.** `Many<T>` does not terminate where, before the end of the input, `T` succeeds without reading anything. -/
theorem C30_many {env : Env} {t : Ty} {s : PState} (hne : s.cur ≠ []) (ht : Idles env t s) :
    Diverges env (.punctuated t (.leaf .notEof)) s := by
  refine punctuated_diverges hne ht ⟨.leaf .notEof .unit, s, ⟨1, ?_⟩, rfl⟩
  have : s.isEmpty = false := by cases h : s.cur with
    | nil => exact absurd h hne
    | cons => simp [PState.isEmpty, h]
  simp only [parse, leafParse, notEofParse, this]; rfl

/-- **C30.** `Separated<T, P>` does not terminate when, after the first `T`, `P` and `T` succeed without reading anything. -/
theorem C30_separated {env : Env} {t p : Ty} {s s1 : PState} {v : Val} (h : Parses env t s v s1) (hp : Idles env p s1) (ht : Idles env t s1) :
    Diverges env (.separated t p) s :=
  diverges_of_core fun n => by
    show (exec (parse env n) n (.seq (.ty t) (.star (.ty p) (.ty t))) s).map _ = .oof
    rw [star_diverges h hp ht n]; rfl

/-- **C30.** `LeftAssoc<O, R>` likewise. -/
theorem C30_leftAssoc_idle {env : Env} {o r : Ty} {s s1 : PState} {v : Val} (h : Parses env r s v s1) (ho : Idles env o s1) (hr : Idles env r s1) :
    Diverges env (.leftAssoc o r) s :=
  diverges_of_core fun n => by
    show (exec (parse env n) n (.seq (.ty r) (.star (.ty o) (.ty r))) s).map _ = .oof
    rw [star_diverges h ho hr n]; rfl

/-- **C30.** `RightAssoc<O, L>` likewise. -/
theorem C30_rightAssoc_idle {env : Env} {o l : Ty} {s s1 : PState} {v : Val} (h : Parses env l s v s1) (ho : Idles env o s1) (hl : Idles env l s1) :
    Diverges env (.rightAssoc o l) s :=
  diverges_of_core fun n => by
    show (exec (parse env n) n (.seq (.ty l) (.star (.ty o) (.ty l))) s).map _ = .oof
    rw [star_diverges h ho hl n]; rfl

/-- **C30.** `LeftAssoc<O, R>` terminates on every input if `O` and `R` do and cannot both be empty: the same operator grammar that diverges when
written as a left-recursive production. -/
theorem C30_leftAssoc_terminates {env : Env} {o r : Ty} (ho : ∀ s, ¬ Diverges env o s) (hr : ∀ s, ¬ Diverges env r s)
    (h : ¬ (CanBeEmpty env o ∧ CanBeEmpty env r)) (s : PState) : ¬ Diverges env (.leftAssoc o r) s := by
  have fin : ∀ {t : Ty}, (∀ s, ¬ Diverges env t s) → ∀ s, Finishes fun m => parse env m t s := by
    intro t ht s
    have := ht s
    simp only [Diverges, Classical.not_forall] at this
    obtain ⟨n, hn⟩ := this
    exact .parse hn
  obtain ⟨r', hne, n, hn⟩ := leftAssoc_finishes (fin ho) (fin hr) h s
  exact fun hd => hne (by rw [← hn n (Nat.le_refl _)]; exact hd n)

/-- Where the input consists of proper tokens, a parse that does not diverge has an outcome. -/
theorem C30_outcome {env : Env} {t : Ty} {s : PState} (hs : Readable s.cur) (h : ¬ Diverges env t s) : Halts env t s := by
  simp only [Diverges, Classical.not_forall] at h
  obtain ⟨n, hn⟩ := h
  exact halts_of_finishes hs (.parse hn)

/-- A diverging parse has no outcome. -/
theorem C30_no_outcome {env : Env} {t : Ty} {s : PState} (h : Diverges env t s) : ¬ Halts env t s := by
  rintro (⟨v, s', n, h1⟩ | ⟨e, n, h1⟩)
  · rw [h n] at h1; cases h1
  · rw [h n] at h1; cases h1

end

/-! ### examples -/

/-- The types of the example grammar. -/
def demoG : List Ty :=
  [.named "Let".toList, .leaf (.keyword "let".toList), .leaf (.customIdent ["let".toList]), .leaf (.punct "=".toList), demoSum,
   .maybe (.leaf (.punct ";".toList)) (.leaf .empty), .leaf (.punct ";".toList), .leaf .empty, .leaf (.punct "+".toList), .named "Expr".toList,
   .paren demoSum, .leaf (.punct "-".toList), .boxed (.named "Expr".toList), .leaf (.lit .uint)]

/-- The parts of a type, as a list. -/
def partsList (env : Env) : Ty → List Ty
  | .leaf _ => []
  | .named x => match env x with
    | .struct fields => fieldTypes fields
    | .enum vs => vs.flatMap fun v => fieldTypes v.fields
  | .boxed t | .paren t | .bracket t | .brace t | .any t => [t]
  | .maybe a b | .punctuated a b | .separated a b | .leftAssoc a b | .rightAssoc a b | .either a b => [a, b]

theorem partOf_list {env : Env} {u t : Ty} (h : PartOf env u t) : u ∈ partsList env t := by
  cases h with
  | struct he hu => simp only [partsList, he]; exact hu
  | enum he hv hu => simp only [partsList, he, List.mem_flatMap]; exact ⟨_, hv, hu⟩
  | maybe h => exact h
  | punctuated h => exact h
  | separated h => exact h
  | leftAssoc h => exact h
  | rightAssoc h => exact h
  | either h => exact h
  | _ => exact List.mem_singleton.mpr rfl


theorem demo_closed : ∀ t ∈ demoG, ∀ u, PartOf demoEnv u t → u ∈ demoG := by
  have : ∀ t ∈ demoG, ∀ u ∈ partsList demoEnv t, u ∈ demoG := by decide
  exact fun t ht u hu => this t ht u (partOf_list hu)

/-- Goes down along `StartsWith` in the example. -/
def demoRank : Ty → Nat
  | .leaf _ => 0
  | .named x => if x = "Expr".toList then 2 else 5
  | .leftAssoc _ _ => 3
  | .boxed _ => 3
  | _ => 1

theorem demo_punct (c : Char) : ¬ CanBeEmpty demoEnv (.leaf (.punct [c])) := by intro h; cases h

theorem demo_rank : ∀ t ∈ demoG, ∀ u, StartsWith demoEnv t u → demoRank u < demoRank t := by
  intro t ht u hu
  by_cases hx : t = .named "Expr".toList
  · subst hx
    cases hu with
    | struct he _ => cases he
    | enum he hv hs =>
      cases he
      obtain ⟨pre, post, hf, he⟩ := hs
      simp only [List.mem_cons, List.not_mem_nil, or_false] at hv
      rcases hv with rfl | rfl | rfl | rfl
      · cases pre with
        | nil => cases hf; decide
        | cons p pre => cases pre <;> cases hf
      · cases pre with
        | nil => cases hf; decide
        | cons p pre =>
          have hp : .leaf (.punct ['-']) = p := (List.cons.inj hf).1
          exact absurd (he _ (by rw [← hp]; simp)) (demo_punct '-')
      · cases pre with
        | nil => cases hf; decide
        | cons p pre => cases pre <;> cases hf
      · cases pre with
        | nil => cases hf; decide
        | cons p pre => cases pre <;> cases hf
  · have : ∀ t ∈ demoG, t = .named "Expr".toList ∨ t = .paren demoSum ∨ ∀ u ∈ partsList demoEnv t, demoRank u < demoRank t := by decide
    rcases this t ht with h | h | h
    · exact absurd h hx
    · subst h; cases hu
    · exact h u (partOf_list (startsWith_partOf hu))

theorem demo_no_left : ∀ t ∈ demoG, ¬ Chain (StartsWith demoEnv) t t := no_left_recursion demo_closed demoRank demo_rank

theorem demo_rounds : ∀ t ∈ demoG, RoundsRead demoEnv t := by
  intro t ht
  simp only [demoG, List.mem_cons, List.not_mem_nil, or_false] at ht
  rcases ht with rfl | rfl | rfl | rfl | rfl | rfl | rfl | rfl | rfl | rfl | rfl | rfl | rfl | rfl <;> try trivial
  exact fun h => demo_punct '+' h.1

/-! Every parse of the example grammar ends: `Let` on every stream of proper tokens. -/
example [Ext] (ts : List TT) (h : Readable ts) :
    (∃ v, Accepts demoEnv (.named "Let".toList) ts v) ∨ ∃ e, Rejects demoEnv (.named "Let".toList) ts e :=
  C29_terminates_parse2 demo_closed demo_no_left demo_rounds (by simp [demoG]) h

/-- `enum Sum { Add { lhs: Box<Sum>, op: Token![+], rhs: LitUint }, Num(LitUint) }` -/
def leftEnv : Env := fun _ =>
  .enum [⟨"Add".toList, .named [("lhs".toList, fld (.boxed (.named "Sum".toList))), ("op".toList, fld (.leaf (.punct "+".toList))),
      ("rhs".toList, fld (.leaf (.lit .uint)))]⟩,
    ⟨"Num".toList, .unnamed [fld (.leaf (.lit .uint))]⟩]

/-- The same with the alternatives the other way round. -/
def rightEnv : Env := fun _ =>
  .enum [⟨"Num".toList, .unnamed [fld (.leaf (.lit .uint))]⟩,
    ⟨"Add".toList, .named [("lhs".toList, fld (.boxed (.named "Sum".toList))), ("op".toList, fld (.leaf (.punct "+".toList))),
      ("rhs".toList, fld (.leaf (.lit .uint)))]⟩]

/-! The left-recursive production diverges on every input, also on `1 + 2` and on the empty one. -/
example [Ext] (s : PState) : Diverges leftEnv (.named "Sum".toList) s := C30_left_recursive_enum rfl rfl s

/-! With the alternatives the other way round it diverges exactly when the first one fails, e.g. on `x`; and `1 + 2` is not read to its end. -/
example [Ext] : Diverges rightEnv (.named "Sum".toList) ⟨[.ident "x".toList spA], .callSite, none⟩ := by
  refine C30_left_recursive_later (before := [⟨"Num".toList, .unnamed [fld (.leaf (.lit .uint))]⟩]) rfl rfl ?_
  intro w hw
  simp only [List.mem_singleton] at hw
  subst hw
  exact ⟨[], _, [], _, _, rfl, .nil, 1, rfl⟩
example : letI := toyExt
    ∃ v s', Parses rightEnv (.named "Sum".toList) ⟨[.lit "1".toList spA, .punct '+' .alone spA, .lit "2".toList spA], .callSite, none⟩ v s' ∧
      s'.cur.length = 2 := ⟨_, _, ⟨20, rfl⟩, rfl⟩

/-! `LeftAssoc<Token![+], LitUint>` reads `1 + 2` and ends on every input. -/
example [Ext] (s : PState) : ¬ Diverges leftEnv (.leftAssoc (.leaf (.punct "+".toList)) (.leaf (.lit .uint))) s := by
  have leaf : ∀ (l : Leaf) (s : PState), ¬ Diverges leftEnv (.leaf l) s := by
    intro l s h
    have h1 := h 1
    have h2 := leaf_outcome l s
    simp only [parse] at h1
    cases hl : leafParse l s with
    | oof => rw [hl] at h2; cases h2
    | _ => rw [hl] at h1; cases h1
  exact C30_leftAssoc_terminates (leaf _) (leaf _) (fun h => by cases h.1) s

/-! `Many<Maybe<Token![+], Empty>>` and `Any<Empty>`. -/
example [Ext] : Diverges leftEnv (.punctuated (.maybe (.leaf (.punct "+".toList)) (.leaf .empty)) (.leaf .notEof)) ⟨[.ident "x".toList spA], .callSite, none⟩ :=
  C30_many (by simp) ⟨_, _, ⟨2, rfl⟩, rfl⟩
example [Ext] (s : PState) : Diverges leftEnv (.any (.leaf .empty)) s := C30_any ⟨_, _, ⟨1, rfl⟩, rfl⟩

end Parsel
