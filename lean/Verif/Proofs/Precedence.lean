import Verif.Spec.Precedence
import Verif.Proofs.LinearCheck

/-! Trees of infix operators and the types for them. -/

namespace Parsel
open Spec
variable [Ext]

/-! ### trees -/

theorem ops_binary {l r : Infix} {op : Val} : (Infix.binary l op r).ops = l.ops ++ op :: r.ops := by simp [Infix.ops, Infix.rest]

theorem Spec.OpOf.cons {env : Env} {l : Level} {L : List Level} {o : Val} (h : OpOf env L o) : OpOf env (l :: L) o := by
  obtain ⟨m, h1, h2⟩ := h
  exact ⟨m, List.mem_cons_of_mem _ h1, h2⟩

theorem opOf_cons {env : Env} {l : Level} {L : List Level} {o : Val} (h : OpOf env (l :: L) o) : OpOf env L o ∨ HasTy env l.op o := by
  obtain ⟨m, h1, h2⟩ := h
  rcases List.mem_cons.mp h1 with rfl | h1
  · exact .inr h2
  · exact .inl ⟨m, h1, h2⟩

theorem Spec.OpOf.later {env : Env} {pre L : List Level} {o : Val} (h : OpOf env L o) : OpOf env (pre ++ L) o := by
  obtain ⟨m, h1, h2⟩ := h
  exact ⟨m, List.mem_append_right _ h1, h2⟩

theorem Spec.Respects.cons {env : Env} {l : Level} {L : List Level} {e : Infix} (h : Respects env L e) : Respects env (l :: L) e := by
  induction h with
  | operand => exact .operand
  | binary h1 h2 h3 h4 _ _ ih1 ih2 => exact .binary (looser := l :: _) (by rw [h1]; rfl) h2 h3 h4 ih1 ih2

theorem Spec.Respects.ops {env : Env} {L : List Level} {e : Infix} (h : Respects env L e) : ∀ o ∈ e.ops, OpOf env L o := by
  cases h with
  | operand => intro o ho; cases ho
  | binary h1 h2 h3 h4 _ _ =>
    subst h1
    intro o ho
    rw [ops_binary] at ho
    rcases List.mem_append.mp ho with ho | ho
    · exact (h3 o ho).elim (fun h => h.cons.later) fun h => ⟨_, List.mem_append_right _ (List.mem_cons_self ..), h.2⟩
    · rcases List.mem_cons.mp ho with rfl | ho
      · exact ⟨_, List.mem_append_right _ (List.mem_cons_self ..), h2⟩
      · exact (h4 o ho).elim (fun h => h.cons.later) fun h => ⟨_, List.mem_append_right _ (List.mem_cons_self ..), h.2⟩

/-- Nothing is an operator of two levels. -/
def ValuesApart (env : Env) (L : List Level) : Prop := L.Pairwise fun a b => ∀ v, HasTy env a.op v → ¬ HasTy env b.op v

theorem level_index {env : Env} {L : List Level} (hv : ValuesApart env L) {i j : Nat} {a b : Level} {o : Val} (ha : L[i]? = some a) (hb : L[j]? = some b)
    (ho : HasTy env a.op o) (ho' : HasTy env b.op o) : i = j := by
  rcases Nat.lt_trichotomy i j with h | h | h
  · obtain ⟨hi, rfl⟩ := List.getElem?_eq_some_iff.mp ha
    obtain ⟨hj, rfl⟩ := List.getElem?_eq_some_iff.mp hb
    exact absurd ho' (List.pairwise_iff_getElem.mp hv i j hi hj h _ ho)
  · exact h
  · obtain ⟨hi, rfl⟩ := List.getElem?_eq_some_iff.mp ha
    obtain ⟨hj, rfl⟩ := List.getElem?_eq_some_iff.mp hb
    exact absurd ho (List.pairwise_iff_getElem.mp hv j i hj hi h _ ho')

/-- Where an operator inside an operand can be. -/
theorem inside_index {env : Env} {L looser tighter looser' tighter' : List Level} {lv lv' : Level} {o : Val} {s : Prop} (hv : ValuesApart env L) (h : L = looser ++ lv :: tighter)
    (h' : L = looser' ++ lv' :: tighter') (ho : HasTy env lv.op o) (hi : OpOf env tighter' o ∨ (s ∧ HasTy env lv'.op o)) :
    looser'.length < looser.length ∨ (looser'.length = looser.length ∧ s) := by
  have e : L[looser.length]? = some lv := by rw [h]; simp
  have e' : L[looser'.length]? = some lv' := by rw [h']; simp
  rcases hi with ⟨m, hm, hm'⟩ | ⟨hs, hm⟩
  · obtain ⟨k, hk, hk'⟩ := List.mem_iff_getElem.mp hm
    have e'' : L[looser'.length + 1 + k]? = some m := by
      rw [h', List.getElem?_append_right (by omega), show looser'.length + 1 + k - looser'.length = k + 1 by omega, List.getElem?_cons_succ,
        List.getElem?_eq_getElem hk, hk']
    have := level_index hv e e'' ho hm'
    left; omega
  · exact .inr ⟨(level_index hv e e' ho hm).symm, hs⟩

theorem clash {env : Env} {L looser tighter looser' tighter' : List Level} {lv lv' : Level} {o o' : Val} (hv : ValuesApart env L) (h : L = looser ++ lv :: tighter)
    (h' : L = looser' ++ lv' :: tighter') (ho : HasTy env lv.op o) (ho' : HasTy env lv'.op o') (h1 : OpOf env tighter' o ∨ (lv'.side = .left ∧ HasTy env lv'.op o))
    (h2 : OpOf env tighter o' ∨ (lv.side = .right ∧ HasTy env lv.op o')) : False := by
  rcases inside_index hv h h' ho h1 with h1 | ⟨h1, s1⟩
  · rcases inside_index hv h' h ho' h2 with h2 | ⟨h2, _⟩ <;> omega
  · rcases inside_index hv h' h ho' h2 with h2 | ⟨h2, s2⟩
    · omega
    · have e : L[looser.length]? = some lv := by rw [h]; simp
      have e' : L[looser'.length]? = some lv' := by rw [h']; simp
      rw [h1, e] at e'
      cases e'
      rw [s1] at s2
      cases s2

/-- There is at most one tree for a sequence that respects precedence and associativity. -/
theorem respects_unique {env : Env} {L : List Level} (hv : ValuesApart env L) : ∀ {e f : Infix}, Respects env L e → Respects env L f → e.first = f.first → e.rest = f.rest → e = f
  | .operand a, .operand b, _, _, h1, _ => by rw [show a = b from h1]
  | .operand _, .binary l _ _, _, _, _, h2 => by simp [Infix.rest] at h2
  | .binary l _ _, .operand _, _, _, _, h2 => by simp [Infix.rest] at h2
  | .binary l op r, .binary l' op' r', .binary e1 t1 a1 b1 c1 d1, .binary e2 t2 a2 b2 c2 d2, h1, h2 => by
    rw [Infix.rest, Infix.rest] at h2
    rcases List.append_eq_append_iff.mp h2 with ⟨as, x1, x2⟩ | ⟨as, x1, x2⟩
    · cases as with
      | nil =>
        simp only [List.append_nil, List.nil_append, List.cons.injEq, Prod.mk.injEq] at x1 x2
        rw [respects_unique hv c1 c2 h1 x1.symm, x2.1.1, respects_unique hv d1 d2 x2.1.2 x2.2]
      | cons x as =>
        simp only [List.cons_append, List.cons.injEq] at x2
        refine (clash hv e1 e2 t1 t2 (a2 op ?_) (b1 op' ?_)).elim
        · rw [Infix.ops, x1, ← x2.1]; simp
        · rw [Infix.ops, x2.2]; simp
    · cases as with
      | nil =>
        simp only [List.append_nil, List.nil_append, List.cons.injEq, Prod.mk.injEq] at x1 x2
        rw [respects_unique hv c1 c2 h1 x1, ← x2.1.1, respects_unique hv d1 d2 x2.1.2.symm x2.2.symm]
      | cons x as =>
        simp only [List.cons_append, List.cons.injEq] at x2
        refine (clash hv e2 e1 t2 t1 (a1 op' ?_) (b2 op ?_)).elim
        · rw [Infix.ops, x1, ← x2.1]; simp
        · rw [Infix.ops, x2.2]; simp

/-! ### every sequence has a tree -/

theorem split_first {α : Type} {P Q : α → Prop} : ∀ {l : List α}, (∀ x ∈ l, P x ∨ Q x) → (∀ x ∈ l, P x) ∨ ∃ a x b, l = a ++ x :: b ∧ Q x ∧ ∀ y ∈ a, P y
  | [], _ => .inl (fun _ h => by cases h)
  | x :: l, h => by
    rcases h x (List.mem_cons_self ..) with hp | hq
    · rcases split_first fun y hy => h y (List.mem_cons_of_mem _ hy) with ih | ⟨a, y, b, rfl, h1, h2⟩
      · exact .inl (List.forall_mem_cons.mpr ⟨hp, ih⟩)
      · exact .inr ⟨x :: a, y, b, rfl, h1, List.forall_mem_cons.mpr ⟨hp, h2⟩⟩
    · exact .inr ⟨[], x, l, rfl, hq, fun _ h => by cases h⟩

theorem split_last {α : Type} {P Q : α → Prop} : ∀ {l : List α}, (∀ x ∈ l, P x ∨ Q x) → (∀ x ∈ l, P x) ∨ ∃ a x b, l = a ++ x :: b ∧ Q x ∧ ∀ y ∈ b, P y
  | [], _ => .inl (fun _ h => by cases h)
  | x :: l, h => by
    rcases split_last fun y hy => h y (List.mem_cons_of_mem _ hy) with ih | ⟨a, y, b, rfl, h1, h2⟩
    · rcases h x (List.mem_cons_self ..) with hp | hq
      · exact .inl (List.forall_mem_cons.mpr ⟨hp, ih⟩)
      · exact .inr ⟨[], x, l, rfl, hq, ih⟩
    · exact .inr ⟨x :: a, y, b, rfl, h1, h2⟩

/-- A tree for every sequence of operands and operators. -/
theorem respects_exists {env : Env} : ∀ (L : List Level) (a : Val) (xs : List (Val × Val)), (∀ x ∈ xs, OpOf env L x.1) →
    ∃ e, Respects env L e ∧ e.first = a ∧ e.rest = xs
  | [], a, [], _ => ⟨.operand a, .operand, rfl, rfl⟩
  | [], _, x :: _, h => by obtain ⟨_, h, _⟩ := h x (List.mem_cons_self ..); cases h
  | ⟨.left, o⟩ :: L, a, xs, h => by
    rcases split_last fun x hx => opOf_cons (h x hx) with hs | ⟨ys, ⟨op, b⟩, zs, rfl, h1, h2⟩
    · obtain ⟨e, h1, h2, h3⟩ := respects_exists L a xs hs
      exact ⟨e, h1.cons, h2, h3⟩
    · obtain ⟨e, e1, e2, e3⟩ := respects_exists (⟨.left, o⟩ :: L) a ys fun x hx => h x (List.mem_append_left _ hx)
      obtain ⟨f, f1, f2, f3⟩ := respects_exists L b zs h2
      refine ⟨.binary e op f, .binary (looser := []) rfl h1 (fun p hp => ?_) (fun p hp => .inl ?_) e1 f1.cons, e2, by rw [Infix.rest, e3, f2, f3]⟩
      · rcases opOf_cons (e1.ops p hp) with h | h
        · exact .inl h
        · exact .inr ⟨rfl, h⟩
      · exact f1.ops p hp
  | ⟨.right, o⟩ :: L, a, xs, h => by
    rcases split_first fun x hx => opOf_cons (h x hx) with hs | ⟨ys, ⟨op, b⟩, zs, rfl, h1, h2⟩
    · obtain ⟨e, h1, h2, h3⟩ := respects_exists L a xs hs
      exact ⟨e, h1.cons, h2, h3⟩
    · obtain ⟨e, e1, e2, e3⟩ := respects_exists L a ys h2
      obtain ⟨f, f1, f2, f3⟩ := respects_exists (⟨.right, o⟩ :: L) b zs fun x hx => h x (List.mem_append_right _ (List.mem_cons_of_mem _ hx))
      refine ⟨.binary e op f, .binary (looser := []) rfl h1 (fun p hp => .inl (e1.ops p hp)) (fun p hp => ?_) e1.cons f1, e2, by rw [Infix.rest, e3, f2, f3]⟩
      rcases opOf_cons (f1.ops p hp) with h | h
      · exact .inl h
      · exact .inr ⟨rfl, h⟩
termination_by L _ xs => (L.length, xs.length)

/-! ### values and trees -/

theorem Spec.Shows.respects {env : Env} {A : Ty} {L : List Level} {T : Ty} {v : Val} {e : Infix} (h : Shows env A L T v e) : Respects env L e := by
  induction h with
  | operand => exact .operand
  | leftRhs _ ih => exact ih.cons
  | leftBin _ ho _ ih1 ih2 =>
    refine .binary (looser := []) rfl ho (fun p hp => ?_) (fun p hp => .inl (ih2.ops p hp)) ih1 ih2.cons
    rcases opOf_cons (ih1.ops p hp) with h | h
    · exact .inl h
    · exact .inr ⟨rfl, h⟩
  | rightLhs _ ih => exact ih.cons
  | rightBin _ ho _ ih1 ih2 =>
    refine .binary (looser := []) rfl ho (fun p hp => .inl (ih1.ops p hp)) (fun p hp => ?_) ih1.cons ih2
    rcases opOf_cons (ih2.ops p hp) with h | h
    · exact .inl h
    · exact .inr ⟨rfl, h⟩
  | boxed _ ih => exact ih
  | newtype _ _ _ ih => exact ih

theorem Spec.Shows.over {env : Env} {A : Ty} {L : List Level} {T : Ty} {v : Val} {e : Infix} (h : Shows env A L T v e) : e.Over env A := by
  induction h with
  | operand h => exact h
  | leftRhs _ ih => exact ih
  | leftBin _ _ _ ih1 ih2 => exact ⟨ih1, ih2⟩
  | rightLhs _ ih => exact ih
  | rightBin _ _ _ ih1 ih2 => exact ⟨ih1, ih2⟩
  | boxed _ ih => exact ih
  | newtype _ _ _ ih => exact ih

theorem Spec.Shows.hasTy {env : Env} {A : Ty} {L : List Level} {T : Ty} {v : Val} {e : Infix} (h : Shows env A L T v e) : HasTy env T v := by
  induction h with
  | operand h => exact h
  | leftRhs _ ih => exact .leftRhs ih
  | leftBin _ ho _ ih1 ih2 => exact .leftBin ih1 ho ih2
  | rightLhs _ ih => exact .rightLhs ih
  | rightBin _ ho _ ih1 ih2 => exact .rightBin ih1 ho ih2
  | boxed _ ih => exact .boxed ih
  | newtype h1 h2 _ ih => exact .struct h1 (by rw [h2]; exact .cons ih .nil)

theorem left_shows {env : Env} {A o T : Ty} {L : List Level} (ih : ∀ v, HasTy env T v → ∃ e, Shows env A L T v e) :
    ∀ {v : Val}, HasTy env (.leftAssoc o T) v → ∃ e, Shows env A (⟨.left, o⟩ :: L) (.leftAssoc o T) v e
  | _, .leftRhs h => by obtain ⟨e, h⟩ := ih _ h; exact ⟨e, .leftRhs h⟩
  | _, .leftBin h1 h2 h3 => by
    obtain ⟨e, h1⟩ := left_shows ih h1
    obtain ⟨f, h3⟩ := ih _ h3
    exact ⟨_, .leftBin h1 h2 h3⟩

theorem right_shows {env : Env} {A o T : Ty} {L : List Level} (ih : ∀ v, HasTy env T v → ∃ e, Shows env A L T v e) :
    ∀ {v : Val}, HasTy env (.rightAssoc o T) v → ∃ e, Shows env A (⟨.right, o⟩ :: L) (.rightAssoc o T) v e
  | _, .rightLhs h => by obtain ⟨e, h⟩ := ih _ h; exact ⟨e, .rightLhs h⟩
  | _, .rightBin h1 h2 h3 => by
    obtain ⟨e, h1⟩ := ih _ h1
    obtain ⟨f, h3⟩ := right_shows ih h3
    exact ⟨_, .rightBin h1 h2 h3⟩

/-- Every value of the type stands for a tree. -/
theorem tower_shows {env : Env} {A : Ty} {L : List Level} {T : Ty} (h : Tower env A L T) : ∀ v, HasTy env T v → ∃ e, Shows env A L T v e := by
  induction h with
  | operand => exact fun v h => ⟨_, .operand h⟩
  | left _ ih => exact fun v h => left_shows ih h
  | right _ ih => exact fun v h => right_shows ih h
  | boxed _ ih =>
    intro v h
    cases h with
    | boxed h => obtain ⟨e, h⟩ := ih v h; exact ⟨e, .boxed h⟩
  | newtype h1 h2 _ ih =>
    intro v h
    cases h with
    | struct he h =>
      rw [h1] at he
      cases he
      rw [h2] at h
      cases h with
      | cons h hn =>
        cases hn
        obtain ⟨e, h⟩ := ih _ h
        exact ⟨e, .newtype h1 h2 h⟩
    | enum he => rw [h1] at he; cases he

/-- A value stands for one tree only. -/
theorem shows_tree {env : Env} {A : Ty} {L : List Level} {T : Ty} {v : Val} {e f : Infix} (h : Shows env A L T v e) (h' : Shows env A L T v f) : e = f := by
  induction h generalizing f with
  | operand => cases h'; rfl
  | leftRhs _ ih => cases h' with | leftRhs h' => exact ih h'
  | leftBin _ _ _ ih1 ih2 => cases h' with | leftBin h1 _ h2 => rw [ih1 h1, ih2 h2]
  | rightLhs _ ih => cases h' with | rightLhs h' => exact ih h'
  | rightBin _ _ _ ih1 ih2 => cases h' with | rightBin h1 _ h2 => rw [ih1 h1, ih2 h2]
  | boxed _ ih => cases h' with | boxed h' => exact ih h'
  | newtype h1 h2 _ ih =>
    cases h' with
    | newtype h3 h4 h' =>
      rw [h1] at h3
      cases h3
      rw [h2] at h4
      cases h4
      exact ih h'

theorem ValuesApart.head {env : Env} {l : Level} {L : List Level} {o : Val} (hv : ValuesApart env (l :: L)) (h : HasTy env l.op o) (h' : OpOf env L o) : False := by
  obtain ⟨m, h1, h2⟩ := h'
  exact (List.pairwise_cons.mp hv).1 m h1 o h h2

theorem ValuesApart.tail {env : Env} {l : Level} {L : List Level} (hv : ValuesApart env (l :: L)) : ValuesApart env L := (List.pairwise_cons.mp hv).2

/-- Different values stand for different trees. -/
theorem shows_value {env : Env} {A : Ty} {L : List Level} {T : Ty} {v w : Val} {e : Infix} (hv : ValuesApart env L) (h : Shows env A L T v e) (h' : Shows env A L T w e) : v = w := by
  induction h generalizing w with
  | operand => cases h'; rfl
  | leftRhs h ih =>
    cases h' with
    | leftRhs h' => rw [ih hv.tail h']
    | leftBin _ ho _ => exact (hv.head ho (h.respects.ops _ (by rw [ops_binary]; simp))).elim
  | leftBin _ ho _ ih1 ih2 =>
    cases h' with
    | leftRhs h' => exact (hv.head ho (h'.respects.ops _ (by rw [ops_binary]; simp))).elim
    | leftBin h1 _ h2 => rw [ih1 hv h1, ih2 hv.tail h2]
  | rightLhs h ih =>
    cases h' with
    | rightLhs h' => rw [ih hv.tail h']
    | rightBin _ ho _ => exact (hv.head ho (h.respects.ops _ (by rw [ops_binary]; simp))).elim
  | rightBin _ ho _ ih1 ih2 =>
    cases h' with
    | rightLhs h' => exact (hv.head ho (h'.respects.ops _ (by rw [ops_binary]; simp))).elim
    | rightBin h1 _ h2 => rw [ih1 hv.tail h1, ih2 hv h2]
  | boxed _ ih => cases h' with | boxed h' => exact ih hv h'
  | newtype h1 h2 _ ih =>
    cases h' with
    | newtype h3 h4 h' =>
      rw [h1] at h3
      cases h3
      rw [h2] at h4
      cases h4
      rw [ih hv h']

theorem respects_drop {env : Env} {l : Level} {L : List Level} (hv : ValuesApart env (l :: L)) : ∀ {e : Infix}, Respects env (l :: L) e → (∀ o ∈ e.ops, OpOf env L o) → Respects env L e
  | .operand _, _, _ => .operand
  | .binary _ op _, .binary (looser := looser) h1 h2 h3 h4 h5 h6, h => by
    rw [ops_binary] at h
    cases looser with
    | nil =>
      cases h1
      exact (hv.head h2 (h op (by simp))).elim
    | cons x looser =>
      cases h1
      exact .binary rfl h2 h3 h4 (respects_drop hv h5 fun o ho => h o (by simp [ho])) (respects_drop hv h6 fun o ho => h o (by simp [ho]))

/-- Every tree that respects precedence and associativity is the tree of a value. -/
theorem tree_shows {env : Env} {A : Ty} {L : List Level} {T : Ty} (h : Tower env A L T) (hv : ValuesApart env L) : ∀ {e : Infix}, Respects env L e → e.Over env A →
    ∃ v, Shows env A L T v e := by
  induction h with
  | operand =>
    intro e h ho
    cases h with
    | operand => exact ⟨_, .operand ho⟩
    | binary h1 => simp at h1
  | @left L o T _ ih =>
    intro e
    induction e with
    | operand v =>
      intro _ ho
      obtain ⟨v, h⟩ := ih hv.tail .operand ho
      exact ⟨_, .leftRhs h⟩
    | binary l op r ih1 ih2 =>
      intro h ho
      have hw := h
      cases h with
      | @binary looser lv tighter _ _ _ h1 h2 h3 h4 h5 h6 =>
        cases looser with
        | nil =>
          cases h1
          obtain ⟨v, hl⟩ := ih1 h5 ho.1
          have hr : ∀ o ∈ r.ops, OpOf env L o := fun p hp => (h4 p hp).elim id fun h => (by cases h.1)
          obtain ⟨w, hr⟩ := ih hv.tail (respects_drop hv h6 hr) ho.2
          exact ⟨_, .leftBin hl h2 hr⟩
        | cons x looser =>
          cases h1
          have hin : ∀ {p s}, OpOf env tighter p ∨ (s ∧ HasTy env lv.op p) → OpOf env (looser ++ lv :: tighter) p := fun h =>
            h.elim (fun h => h.cons.later) fun h => ⟨lv, by simp, h.2⟩
          have : ∀ o ∈ (Infix.binary l op r).ops, OpOf env (looser ++ lv :: tighter) o := fun p hp => by
            rw [ops_binary] at hp
            rcases List.mem_append.mp hp with hp | hp
            · exact hin (h3 p hp)
            · rcases List.mem_cons.mp hp with rfl | hp
              · exact ⟨lv, by simp, h2⟩
              · exact hin (h4 p hp)
          obtain ⟨v, h⟩ := ih hv.tail (respects_drop hv hw this) ho
          exact ⟨_, .leftRhs h⟩
  | @right L o T _ ih =>
    intro e
    induction e with
    | operand v =>
      intro _ ho
      obtain ⟨v, h⟩ := ih hv.tail .operand ho
      exact ⟨_, .rightLhs h⟩
    | binary l op r ih1 ih2 =>
      intro h ho
      have hw := h
      cases h with
      | @binary looser lv tighter _ _ _ h1 h2 h3 h4 h5 h6 =>
        cases looser with
        | nil =>
          cases h1
          obtain ⟨v, hr⟩ := ih2 h6 ho.2
          have hl : ∀ o ∈ l.ops, OpOf env L o := fun p hp => (h3 p hp).elim id fun h => (by cases h.1)
          obtain ⟨w, hl⟩ := ih hv.tail (respects_drop hv h5 hl) ho.1
          exact ⟨_, .rightBin hl h2 hr⟩
        | cons x looser =>
          cases h1
          have hin : ∀ {p s}, OpOf env tighter p ∨ (s ∧ HasTy env lv.op p) → OpOf env (looser ++ lv :: tighter) p := fun h =>
            h.elim (fun h => h.cons.later) fun h => ⟨lv, by simp, h.2⟩
          have : ∀ o ∈ (Infix.binary l op r).ops, OpOf env (looser ++ lv :: tighter) o := fun p hp => by
            rw [ops_binary] at hp
            rcases List.mem_append.mp hp with hp | hp
            · exact hin (h3 p hp)
            · rcases List.mem_cons.mp hp with rfl | hp
              · exact ⟨lv, by simp, h2⟩
              · exact hin (h4 p hp)
          obtain ⟨v, h⟩ := ih hv.tail (respects_drop hv hw this) ho
          exact ⟨_, .rightLhs h⟩
  | boxed _ ih =>
    intro e h ho
    obtain ⟨v, h⟩ := ih hv h ho
    exact ⟨v, .boxed h⟩
  | newtype h1 h2 _ ih =>
    intro e h ho
    obtain ⟨v, h⟩ := ih hv h ho
    exact ⟨_, .newtype h1 h2 h⟩

end Parsel
