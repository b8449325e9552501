import Verif.Spec.Linear
import Verif.Spec.Work
import Verif.Proofs.Work

/-! The work of parsing a decisive grammar is linear in the size of the input. -/

namespace Parsel
open Spec

variable [Ext]

/-! ### the work of one implementation, from the work of its calls -/

section
variable (S : Ty → List TT → Option (List TT) → Nat → Prop)

/-- Fields. -/
inductive SeqS : List Ty → List TT → Option (List TT) → Nat → Prop
  | nil {c : List TT} : SeqS [] c (some c) 0
  | fail {t : Ty} {ts : List Ty} {c : List TT} {k : Nat} : S t c none k → SeqS (t :: ts) c none k
  | cons {t : Ty} {ts : List Ty} {c m : List TT} {o : Option (List TT)} {k k' : Nat} : S t c (some m) k → SeqS ts m o k' → SeqS (t :: ts) c o (k + k')

/-- Alternatives. -/
inductive AltS : List (List Ty) → List TT → Option (List TT) → Nat → Prop
  | nil {c : List TT} : AltS [] c none 0
  | here {ts : List Ty} {alts : List (List Ty)} {c : List TT} {o : Option (List TT)} {k : Nat} : SeqS S ts c o k → AltS (ts :: alts) c o k
  | later {ts : List Ty} {alts : List (List Ty)} {c : List TT} {o : Option (List TT)} {k k' : Nat} : SeqS S ts c none k → AltS alts c o k' →
      AltS (ts :: alts) c o (k + k')

/-- Rounds of `a` and `b`. -/
inductive PairS (a b : Ty) : List TT → Option (List TT) → Nat → Prop
  | out {c : List TT} : PairS a b c none 0
  | done {c : List TT} : PairS a b c (some c) 0
  | stop {c : List TT} {k : Nat} : S a c none k → PairS a b c (some c) k
  | stuck {c : List TT} {k : Nat} : S a c none k → PairS a b c none k
  | last {c : List TT} {k : Nat} : S a c (some []) k → PairS a b c (some []) k
  | fail {c m : List TT} {k k' : Nat} : S a c (some m) k → S b m none k' → PairS a b c none (k + k')
  | more {c m m' : List TT} {o : Option (List TT)} {k k' k'' : Nat} : S a c (some m) k → S b m (some m') k' → PairS a b m' o k'' →
      PairS a b c o (k + k' + k'')

/-- Rounds of `a`. -/
inductive ItemS (a : Ty) : List TT → Option (List TT) → Nat → Prop
  | out {c : List TT} : ItemS a c none 0
  | stop {c : List TT} {k : Nat} : S a c none k → ItemS a c (some c) k
  | stuck {c : List TT} {k : Nat} : S a c none k → ItemS a c none k
  | more {c m : List TT} {o : Option (List TT)} {k k' : Nat} : S a c (some m) k → ItemS a m o k' → ItemS a c o (k + k')

/-- A value, then rounds of separator and value. -/
inductive ListS (t p : Ty) : List TT → Option (List TT) → Nat → Prop
  | head {c : List TT} {k : Nat} : S t c none k → ListS t p c none k
  | list {c m : List TT} {o : Option (List TT)} {k k' : Nat} : S t c (some m) k → PairS S p t m o k' → ListS t p c o (k + k')

/-- One implementation. -/
inductive StepS (env : Env) : Ty → List TT → Option (List TT) → Nat → Prop
  | leafYes {l : Leaf} {c rest : List TT} {v : LeafVal} : LeafAt l c v rest → StepS env (.leaf l) c (some rest) 1
  | leafNo {l : Leaf} {c : List TT} : StepS env (.leaf l) c none 1
  | struct {x : Text} {fields : Fields Ty} {c : List TT} {o : Option (List TT)} {k : Nat} : env x = .struct fields → SeqS S (fieldTypes fields) c o k →
      StepS env (.named x) c o (k + 1)
  | enum {x : Text} {vs : List (VariantDef Ty)} {c : List TT} {o : Option (List TT)} {k : Nat} : env x = .enum vs →
      AltS S (vs.map fun v => fieldTypes v.fields) c o k → StepS env (.named x) c o (k + 1)
  | boxed {t : Ty} {c : List TT} {o : Option (List TT)} {k : Nat} : S t c o k → StepS env (.boxed t) c o (k + 1)
  | maybeNone {p t : Ty} {c : List TT} {k : Nat} : S p c none k → StepS env (.maybe p t) c (some c) (k + 1)
  | maybeStuck {p t : Ty} {c : List TT} {k : Nat} : S p c none k → StepS env (.maybe p t) c none (k + 1)
  | maybeSome {p t : Ty} {c m : List TT} {o : Option (List TT)} {k k' : Nat} : S p c (some m) k → S t m o k' → StepS env (.maybe p t) c o (k + k' + 1)
  | groupNo {g : Ty} {d : Delim} {t : Ty} {c : List TT} : GroupTy g d t → StepS env g c none 1
  | group {g : Ty} {d : Delim} {t : Ty} {c inner rest : List TT} {sp : Span} {o o' : Option (List TT)} {k : Nat} : GroupTy g d t →
      Next c (.group d inner sp) rest → S t inner o k → (∀ m, o' = some m → m = rest) → StepS env g c o' (k + 1)
  | punctuated {t p : Ty} {c : List TT} {o : Option (List TT)} {k : Nat} : PairS S t p c o k → StepS env (.punctuated t p) c o (k + 1)
  | separated {t p : Ty} {c : List TT} {o : Option (List TT)} {k : Nat} : ListS S t p c o k → StepS env (.separated t p) c o (k + 1)
  | leftAssoc {q r : Ty} {c : List TT} {o : Option (List TT)} {k : Nat} : ListS S r q c o k → StepS env (.leftAssoc q r) c o (k + 1)
  | rightAssoc {q l : Ty} {c : List TT} {o : Option (List TT)} {k : Nat} : ListS S l q c o k → StepS env (.rightAssoc q l) c o (k + 1)
  | any {t : Ty} {c : List TT} {o : Option (List TT)} {k : Nat} : ItemS S t c o k → StepS env (.any t) c o (k + 1)
  | either {l r : Ty} {c : List TT} {o : Option (List TT)} {k : Nat} : AltS S [[l], [r]] c o k → StepS env (.either l r) c o (k + 1)

end

/-! ### what is to be shown -/

/-- Nothing that `t` may start with is there. -/
def Closed (env : Env) (t : Ty) (c : List TT) : Prop := ∀ u, Lead env t u → ¬ Opens u c

/-- Nothing that could continue a `t` is there. -/
def Clean (env : Env) (t : Ty) (c : List TT) : Prop := ∀ u, Grabs env t u → ¬ Opens u c

/-- The same for fields. -/
def SeqClosed (env : Env) (ts : List Ty) (c : List TT) : Prop := ∀ u, SeqLead env ts u → ¬ Opens u c

def SeqClean (env : Env) (ts : List Ty) (c : List TT) : Prop :=
  ∀ pre x post, ts = pre ++ x :: post → (∀ y ∈ post, CanBeEmpty env y) → Clean env x c

/-- Bounds: `b` where nothing is read, `K` per token and `d` otherwise. -/
structure Good (env : Env) (K b d : Nat) (t : Ty) (c : List TT) (o : Option (List TT)) (k : Nat) : Prop where
  moves : ∀ m, o = some m → (m = c ∧ CanBeEmpty env t) ∨ TT.sizes m < TT.sizes c
  still : Closed env t c → ∀ m, o = some m → m = c
  quiet : TT.sizes c = 0 ∨ Closed env t c ∨ (o = some c ∧ Clean env t c) → k ≤ b
  reads : ∀ m, o = some m → m ≠ c → Clean env t m → k + K * TT.sizes m + K ≤ K * TT.sizes c + d
  all : 0 < TT.sizes c → k + K ≤ K * TT.sizes c + d

/-! ### consequences -/

section
variable {env : Env} {K b d : Nat} {t : Ty} {c : List TT} {o : Option (List TT)} {k : Nat}

/-- With `B` and `D` the bounds for all types. -/
theorem Good.cleanLater (h : Good env K b d t c o k) (hK : d ≤ K) {m : List TT} (ho : o = some m) (hc : Clean env t m) :
    k + K * TT.sizes m ≤ K * TT.sizes c + b := by
  by_cases hm : m = c
  · subst hm
    have := h.quiet (.inr (.inr ⟨ho, hc⟩))
    omega
  · have := h.reads m ho hm hc
    omega

theorem Good.cleanReads (h : Good env K b d t c o k) (e : Nat) (hK : d + e ≤ K) {m : List TT} (ho : o = some m) (hm : m ≠ c) (hc : Clean env t m) :
    k + K * TT.sizes m + e ≤ K * TT.sizes c := by
  have := h.reads m ho hm hc
  omega

theorem Good.later (h : Good env K b d t c o k) (hK : d ≤ K) : k ≤ K * TT.sizes c + b := by
  by_cases h0 : TT.sizes c = 0
  · have := h.quiet (.inl h0); omega
  · have := h.all (by omega); omega

theorem Good.null (h : Good env K b d t c o k) (ho : o = some c) : CanBeEmpty env t := by
  rcases h.moves c ho with h | h
  · exact h.2
  · omega

theorem Good.lt (h : Good env K b d t c o k) {m : List TT} (ho : o = some m) (hm : m ≠ c) : TT.sizes m < TT.sizes c := by
  rcases h.moves m ho with h | h
  · exact absurd h.1 hm
  · exact h

theorem Good.le (h : Good env K b d t c o k) {m : List TT} (ho : o = some m) : TT.sizes m ≤ TT.sizes c := by
  rcases h.moves m ho with h | h
  · rw [h.1]; exact Nat.le_refl _
  · omega

end

/-! ### fields -/

theorem seqDisjoint_tail {env : Env} {t : Ty} {ts : List Ty} (h : SeqDisjoint env (t :: ts)) : SeqDisjoint env ts :=
  fun pre x post e => h (t :: pre) x post (by rw [e]; rfl)

omit [Ext] in
theorem seqLead_here {env : Env} {t u : Ty} {ts : List Ty} (h : Lead env t u) : SeqLead env (t :: ts) u := ⟨t, ⟨[], ts, rfl, fun _ h => by cases h⟩, h⟩

omit [Ext] in
theorem seqStarts_later {env : Env} {t u : Ty} {ts : List Ty} (ht : CanBeEmpty env t) (h : SeqStarts env ts u) : SeqStarts env (t :: ts) u := by
  obtain ⟨pre, post, h1, h2⟩ := h
  exact ⟨t :: pre, post, by rw [h1]; rfl, fun x hx => by
    rcases List.mem_cons.mp hx with rfl | hx
    · exact ht
    · exact h2 x hx⟩

omit [Ext] in
theorem seqLead_later {env : Env} {t u : Ty} {ts : List Ty} (ht : CanBeEmpty env t) (h : SeqLead env ts u) : SeqLead env (t :: ts) u := by
  obtain ⟨x, h1, h2⟩ := h
  exact ⟨x, seqStarts_later ht h1, h2⟩

theorem SeqClean.tail {env : Env} {t : Ty} {ts : List Ty} {c : List TT} (h : SeqClean env (t :: ts) c) : SeqClean env ts c :=
  fun pre x post e => h (t :: pre) x post (by rw [e]; rfl)

theorem SeqClosed.head {env : Env} {t : Ty} {ts : List Ty} {c : List TT} (h : SeqClosed env (t :: ts) c) : Closed env t c := fun u hu => h u (seqLead_here hu)

theorem SeqClosed.tail {env : Env} {t : Ty} {ts : List Ty} {c : List TT} (h : SeqClosed env (t :: ts) c) (ht : CanBeEmpty env t) : SeqClosed env ts c :=
  fun u hu => h u (seqLead_later ht hu)

/-- What follows an unclean end is closed. -/
theorem closed_of_unclean {env : Env} {t : Ty} {ts : List Ty} {c : List TT} (h : SeqDisjoint env (t :: ts)) (hn : ¬ Clean env t c) : SeqClosed env ts c := by
  intro u hu ho
  refine hn fun w hw how => ?_
  exact h [] t ts rfl w u hw hu c how ho

/-- Bounds for fields. -/
structure SeqGood (env : Env) (K B : Nat) (ts : List Ty) (c : List TT) (o : Option (List TT)) (k : Nat) : Prop where
  moves : ∀ m, o = some m → (m = c ∧ ∀ x ∈ ts, CanBeEmpty env x) ∨ TT.sizes m < TT.sizes c
  still : SeqClosed env ts c → ∀ m, o = some m → m = c
  closed : SeqClosed env ts c → k ≤ ts.length * B
  clean : ∀ m, o = some m → SeqClean env ts m → k + K * TT.sizes m ≤ K * TT.sizes c + ts.length * B
  all : k ≤ K * TT.sizes c + ts.length * B

/-- Bounds for fields at the start. -/
structure SeqFirst (env : Env) (K B b d : Nat) (ts : List Ty) (c : List TT) (o : Option (List TT)) (k : Nat) : Prop where
  quiet : TT.sizes c = 0 ∨ SeqClosed env ts c ∨ (o = some c ∧ SeqClean env ts c) → k ≤ ts.length * b
  reads : ∀ m, o = some m → m ≠ c → SeqClean env ts m → k + K * TT.sizes m + K ≤ K * TT.sizes c + d + ts.length * B
  all : 0 < TT.sizes c → k + K ≤ K * TT.sizes c + d + ts.length * B

variable {S : Ty → List TT → Option (List TT) → Nat → Prop}

theorem seq_good {env : Env} {K B D : Nat} (hK : D ≤ K) : ∀ {ts : List Ty} {c : List TT} {o : Option (List TT)} {k : Nat},
    (∀ x ∈ ts, ∀ c o k, S x c o k → Good env K B D x c o k) → SeqDisjoint env ts → SeqS S ts c o k → SeqGood env K B ts c o k := by
  intro ts c o k hg hd h
  induction h with
  | nil => exact ⟨fun m h => .inl ⟨by injection h with h; exact h.symm, fun _ h => by cases h⟩, fun _ m h => by injection h with h; exact h.symm,
      fun _ => Nat.zero_le _, fun m h _ => by injection h with h; subst h; omega, Nat.zero_le _⟩
  | @fail t ts c k h =>
    have g := hg t (.head _) _ _ _ h
    have e : (t :: ts).length * B = B + ts.length * B := by rw [List.length_cons, Nat.add_mul, Nat.one_mul, Nat.add_comm]
    refine ⟨fun m h => (by cases h), fun _ m h => (by cases h), fun hc => ?_, fun m h => (by cases h), ?_⟩
    · have := g.quiet (.inr (.inl hc.head)); omega
    · have := g.later hK; omega
  | @cons t ts c m o k k' h _ ih =>
    have g := hg t (.head _) _ _ _ h
    have ih := ih (fun x hx => hg x (.tail _ hx)) (seqDisjoint_tail hd)
    have e : (t :: ts).length * B = B + ts.length * B := by rw [List.length_cons, Nat.add_mul, Nat.one_mul, Nat.add_comm]
    refine ⟨fun m' ho => ?_, fun hc m' ho => ?_, fun hc => ?_, fun m' ho hcl => ?_, ?_⟩
    · rcases ih.moves m' ho with ⟨rfl, h2⟩ | h2
      · rcases g.moves _ rfl with ⟨rfl, h3⟩ | h3
        · exact .inl ⟨rfl, fun x hx => by
            rcases List.mem_cons.mp hx with rfl | hx
            · exact h3
            · exact h2 x hx⟩
        · exact .inr h3
      · exact .inr (Nat.lt_of_lt_of_le h2 (g.le rfl))
    · obtain rfl := g.still hc.head m rfl
      exact ih.still (hc.tail (g.null rfl)) m' ho
    · obtain rfl := g.still hc.head m rfl
      have h1 := g.quiet (.inr (.inl hc.head))
      have h2 := ih.closed (hc.tail (g.null rfl))
      omega
    · by_cases hm : Clean env t m
      · have h1 := g.cleanLater hK rfl hm
        have h2 := ih.clean m' ho hcl.tail
        omega
      · have hc := closed_of_unclean hd hm
        obtain rfl := ih.still hc m' ho
        rcases ih.moves _ ho with ⟨_, h2⟩ | h2
        · exact absurd (hcl [] t ts rfl h2) hm
        · omega
    · by_cases hm : Clean env t m
      · have h1 := g.cleanLater hK rfl hm
        have h2 := ih.all
        omega
      · have h1 := g.later hK
        have h2 := ih.closed (closed_of_unclean hd hm)
        omega

theorem seq_first {env : Env} {K B D b d : Nat} (hK : D ≤ K) (hb : b ≤ B) : ∀ {ts : List Ty} {c : List TT} {o : Option (List TT)} {k : Nat},
    (∀ x ∈ ts, ∀ c o k, S x c o k → Good env K B D x c o k) → (∀ x, SeqStarts env ts x → ∀ c o k, S x c o k → Good env K b d x c o k) →
    SeqDisjoint env ts → SeqS S ts c o k → (0 < k → ts ≠ []) ∧ SeqFirst env K B b d ts c o k := by
  intro ts c o k hg hh hd h
  refine ⟨?_, ?_⟩
  · rintro hk rfl; cases h; omega
  induction h with
  | nil => exact ⟨fun _ => Nat.zero_le _, fun m h hm => (by injection h with h; exact absurd h.symm hm), fun h => by
      have : K ≤ K * TT.sizes ‹_› := Nat.le_mul_of_pos_right _ h
      omega⟩
  | @fail t ts c k h =>
    have g := hh t ⟨[], ts, rfl, fun _ h => by cases h⟩ _ _ _ h
    have e : (t :: ts).length * b = b + ts.length * b := by rw [List.length_cons, Nat.add_mul, Nat.one_mul, Nat.add_comm]
    refine ⟨fun hq => ?_, fun m h => (by cases h), fun hz => ?_⟩
    · have := g.quiet (by
        rcases hq with h | h | h
        · exact .inl h
        · exact .inr (.inl h.head)
        · cases h.1)
      omega
    · have := g.all hz; omega
  | @cons t ts c m o k k' h hrest ih =>
    have gB := hg t (.head _) _ _ _ h
    have g := hh t ⟨[], ts, rfl, fun _ h => by cases h⟩ _ _ _ h
    have sg := seq_good hK (fun x hx => hg x (.tail _ hx)) (seqDisjoint_tail hd) hrest
    have e : (t :: ts).length * B = B + ts.length * B := by rw [List.length_cons, Nat.add_mul, Nat.one_mul, Nat.add_comm]
    have e' : (t :: ts).length * b = b + ts.length * b := by rw [List.length_cons, Nat.add_mul, Nat.one_mul, Nat.add_comm]
    have ih' : CanBeEmpty env t → SeqFirst env K B b d ts m o k' := fun ht =>
      ih (fun x hx => hg x (.tail _ hx)) (fun x hx => hh x (seqStarts_later ht hx)) (seqDisjoint_tail hd)
    refine ⟨fun hq => ?_, fun m' ho hm' hcl => ?_, fun hz => ?_⟩
    · rcases hq with h0 | hc | ⟨ho, hcl⟩
      · have hm : m = c := by
          by_cases hm : m = c
          · exact hm
          · have := g.lt rfl hm; omega
        subst hm
        have h1 := g.quiet (.inl h0)
        have h2 := (ih' (g.null rfl)).quiet (.inl h0)
        omega
      · obtain rfl := g.still hc.head m rfl
        have h1 := g.quiet (.inr (.inl hc.head))
        have h2 := (ih' (g.null rfl)).quiet (.inr (.inl (hc.tail (g.null rfl))))
        omega
      · have hm : m = c := by
          by_cases hm : m = c
          · exact hm
          · have h1 := g.lt rfl hm
            rcases sg.moves c ho with h2 | h2
            · exact h2.1.symm
            · omega
        subst hm
        have hn : ∀ x ∈ ts, CanBeEmpty env x := by
          rcases sg.moves m ho with h2 | h2
          · exact h2.2
          · omega
        have h1 := g.quiet (.inr (.inr ⟨rfl, hcl [] t ts rfl hn⟩))
        have h2 := (ih' (g.null rfl)).quiet (.inr (.inr ⟨ho, hcl.tail⟩))
        omega
    · by_cases hc : Clean env t m
      · by_cases hm : m = c
        · subst hm
          have h1 := g.quiet (.inr (.inr ⟨rfl, hc⟩))
          have h2 := (ih' (g.null rfl)).reads m' ho hm' hcl.tail
          omega
        · have h1 := g.reads m rfl hm hc
          have h2 := sg.clean m' ho hcl.tail
          omega
      · have hcd := closed_of_unclean hd hc
        obtain rfl := sg.still hcd m' ho
        rcases sg.moves _ ho with ⟨_, h2⟩ | h2
        · exact absurd (hcl [] t ts rfl h2) hc
        · omega
    · by_cases hc : Clean env t m
      · by_cases hm : m = c
        · subst hm
          have h1 := g.quiet (.inr (.inr ⟨rfl, hc⟩))
          have h2 := (ih' (g.null rfl)).all hz
          omega
        · have h1 := g.reads m rfl hm hc
          have h2 := sg.all
          omega
      · have h1 := g.all hz
        have h2 := sg.closed (closed_of_unclean hd hc)
        omega

/-! ### alternatives -/

/-- The number of types. -/
def total (alts : List (List Ty)) : Nat := (alts.map List.length).sum

/-- Bounds for alternatives. -/
structure AltGood (env : Env) (K B b d : Nat) (alts : List (List Ty)) (c : List TT) (o : Option (List TT)) (k : Nat) : Prop where
  moves : ∀ m, o = some m → (m = c ∧ ∃ ts ∈ alts, ∀ x ∈ ts, CanBeEmpty env x) ∨ TT.sizes m < TT.sizes c
  still : (∀ ts ∈ alts, SeqClosed env ts c) → ∀ m, o = some m → m = c
  quiet : TT.sizes c = 0 ∨ (∀ ts ∈ alts, SeqClosed env ts c) ∨ (o = some c ∧ (∀ ts ∈ alts, SeqClean env ts c) ∧
    ∀ before v mid w after, alts = before ++ v :: (mid ++ w :: after) → (∀ x ∈ w, CanBeEmpty env x) → SeqClosed env v c) → k ≤ total alts * b
  reads : ∀ m, o = some m → m ≠ c → (∀ ts ∈ alts, SeqClean env ts m) → k + K * TT.sizes m + K ≤ K * TT.sizes c + d + total alts * B
  all : 0 < TT.sizes c → k + K ≤ K * TT.sizes c + d + total alts * B

theorem alt_good {env : Env} {K B D b d : Nat} (hK : D ≤ K) (hb : b ≤ B) : ∀ {alts : List (List Ty)} {c : List TT} {o : Option (List TT)} {k : Nat},
    (∀ ts ∈ alts, ∀ x ∈ ts, ∀ c o k, S x c o k → Good env K B D x c o k) →
    (∀ ts ∈ alts, ∀ x, SeqStarts env ts x → ∀ c o k, S x c o k → Good env K b d x c o k) →
    (∀ ts ∈ alts, SeqDisjoint env ts) →
    (∀ before v mid w after, alts = before ++ v :: (mid ++ w :: after) → ∀ u b, SeqLead env v u → SeqLead env w b → NeverBoth u b) →
    AltS S alts c o k → AltGood env K B b d alts c o k := by
  intro alts c o k hg hh hd hx h
  induction h with
  | nil =>
    exact ⟨fun m h => (by cases h), fun _ m h => (by cases h), fun _ => Nat.zero_le _, fun m h => (by cases h), fun h => by
      have : K ≤ K * TT.sizes ‹_› := Nat.le_mul_of_pos_right _ h
      omega⟩
  | @here ts alts c o k h =>
    have sg := seq_good hK (hg ts (.head _)) (hd ts (.head _)) h
    have sf := (seq_first hK hb (hg ts (.head _)) (hh ts (.head _)) (hd ts (.head _)) h).2
    have e : total (ts :: alts) * B = ts.length * B + total alts * B := by simp [total, Nat.add_mul]
    have e' : total (ts :: alts) * b = ts.length * b + total alts * b := by simp [total, Nat.add_mul]
    refine ⟨fun m ho => (sg.moves m ho).imp (fun h => ⟨h.1, ts, .head _, h.2⟩) id, fun hc m ho => sg.still (hc ts (.head _)) m ho, fun hq => ?_,
      fun m ho hm hcl => ?_, fun hz => ?_⟩
    · have := sf.quiet (by
        rcases hq with h | h | h
        · exact .inl h
        · exact .inr (.inl (h ts (.head _)))
        · exact .inr (.inr ⟨h.1, h.2.1 ts (.head _)⟩))
      omega
    · have := sf.reads m ho hm (hcl ts (.head _)); omega
    · have := sf.all hz; omega
  | @later ts alts c o k k' h hrest ih =>
    have sg := seq_good hK (hg ts (.head _)) (hd ts (.head _)) h
    have sf := (seq_first hK hb (hg ts (.head _)) (hh ts (.head _)) (hd ts (.head _)) h).2
    have ih := ih (fun ts hts => hg ts (.tail _ hts)) (fun ts hts => hh ts (.tail _ hts)) (fun ts hts => hd ts (.tail _ hts))
      (fun before v mid w after e => hx (ts :: before) v mid w after (by rw [e]; rfl))
    have e : total (ts :: alts) * B = ts.length * B + total alts * B := by simp [total, Nat.add_mul]
    have e' : total (ts :: alts) * b = ts.length * b + total alts * b := by simp [total, Nat.add_mul]
    have m1 : ts.length * b ≤ ts.length * B := Nat.mul_le_mul_left _ hb
    have m2 : total alts * b ≤ total alts * B := Nat.mul_le_mul_left _ hb
    -- once the first alternative is open, the others are closed
    have split : ¬ SeqClosed env ts c → ∀ w ∈ alts, SeqClosed env w c := by
      intro hn w hw u hu ho
      refine hn fun u' hu' ho' => ?_
      obtain ⟨mid, after, rfl⟩ := List.append_of_mem hw
      exact hx [] ts mid w after rfl u' u hu' hu c ho' ho
    refine ⟨fun m ho => (ih.moves m ho).imp (fun h => ⟨h.1, h.2.imp fun w hw => ⟨.tail _ hw.1, hw.2⟩⟩) id,
      fun hc m ho => ih.still (fun w hw => hc w (.tail _ hw)) m ho, fun hq => ?_, fun m ho hm hcl => ?_, fun hz => ?_⟩
    · rcases hq with h0 | hc | ⟨ho, hcl, hop⟩
      · have h1 := sf.quiet (.inl h0)
        have h2 := ih.quiet (.inl h0)
        omega
      · have h1 := sf.quiet (.inr (.inl (hc ts (.head _))))
        have h2 := ih.quiet (.inr (.inl fun w hw => hc w (.tail _ hw)))
        omega
      · have h2 := ih.quiet (.inr (.inr ⟨ho, fun w hw => hcl w (.tail _ hw), fun before v mid w after e =>
          hop (ts :: before) v mid w after (by rw [e]; rfl)⟩))
        have hts : SeqClosed env ts c := by
          rcases ih.moves c ho with ⟨_, w, hw, hwn⟩ | h
          · obtain ⟨mid, after, rfl⟩ := List.append_of_mem hw
            exact hop [] ts mid w after rfl hwn
          · omega
        have h1 := sf.quiet (.inr (.inl hts))
        omega
    · have h2 := ih.reads m ho hm (fun w hw => hcl w (.tail _ hw))
      have hts : SeqClosed env ts c := by
        by_cases hn : SeqClosed env ts c
        · exact hn
        · exact absurd (ih.still (split hn) m ho) hm
      have h1 := sf.quiet (.inr (.inl hts))
      omega
    · by_cases hn : SeqClosed env ts c
      · have h1 := sf.quiet (.inr (.inl hn))
        have h2 := ih.all hz
        omega
      · have h1 := sf.all hz
        have h2 := ih.quiet (.inr (.inl (split hn)))
        omega

/-! ### repetitions -/

/-- What rounds of `a` and `b` may start with is not there. -/
def PairClosed (env : Env) (a b : Ty) (c : List TT) : Prop := Closed env a c ∧ (CanBeEmpty env a → Closed env b c)

/-- What could continue rounds of `a` and `b` is not there. -/
def PairClean (env : Env) (a b : Ty) (c : List TT) : Prop := Closed env a c ∧ Clean env b c ∧ (CanBeEmpty env b → Clean env a c)

/-- What comes after `a`, and after `b`, cannot be mistaken for a continuation. -/
structure PairDisjoint (env : Env) (a b : Ty) : Prop where
  first : ∀ c, ¬ Clean env a c → Closed env b c ∧ (CanBeEmpty env b → Closed env a c)
  second : ∀ c, ¬ Clean env b c → PairClosed env a b c
  rounds : ¬ (CanBeEmpty env a ∧ CanBeEmpty env b)

/-- Bounds for rounds. -/
structure PairGood (env : Env) (K B : Nat) (a b : Ty) (c : List TT) (o : Option (List TT)) (k : Nat) : Prop where
  moves : ∀ m, o = some m → m = c ∨ TT.sizes m < TT.sizes c
  still : PairClosed env a b c → ∀ m, o = some m → m = c
  closed : PairClosed env a b c → k ≤ 2 * B
  clean : ∀ m, o = some m → PairClean env a b m → k + K * TT.sizes m ≤ K * TT.sizes c + B
  all : k ≤ K * TT.sizes c + 4 * B

theorem pair_good {env : Env} {K B D : Nat} (hK : D + B ≤ K) {a b : Ty} (hd : PairDisjoint env a b) {c : List TT} {o : Option (List TT)} {k : Nat}
    (ha : ∀ c o k, S a c o k → Good env K B D a c o k) (hb : ∀ c o k, S b c o k → Good env K B D b c o k) (h : PairS S a b c o k) :
    PairGood env K B a b c o k := by
  induction h with
  | out => exact ⟨fun m h => (by cases h), fun _ m h => (by cases h), fun _ => Nat.zero_le _, fun m h => (by cases h), Nat.zero_le _⟩
  | done =>
    exact ⟨fun m h => .inl (by injection h with h; exact h.symm), fun _ m h => (by injection h with h; exact h.symm), fun _ => Nat.zero_le _,
      fun m h _ => (by injection h with h; subst h; omega), Nat.zero_le _⟩
  | stop h =>
    have g := ha _ _ _ h
    refine ⟨fun m h => .inl (by injection h with h; exact h.symm), fun _ m h => (by injection h with h; exact h.symm), fun hc => ?_, fun m h hc => ?_, ?_⟩
    · have := g.quiet (.inr (.inl hc.1)); omega
    · injection h with h; subst h
      have := g.quiet (.inr (.inl hc.1)); omega
    · have := g.later (by omega); omega
  | stuck h =>
    have g := ha _ _ _ h
    refine ⟨fun m h => (by cases h), fun _ m h => (by cases h), fun hc => ?_, fun m h => (by cases h), ?_⟩
    · have := g.quiet (.inr (.inl hc.1)); omega
    · have := g.later (by omega); omega
  | last h =>
    have g := ha _ _ _ h
    refine ⟨fun m h => (g.moves m h).imp (·.1) id, fun hc m h => g.still hc.1 m h, fun hc => ?_, fun m h hc => ?_, ?_⟩
    · have := g.quiet (.inr (.inl hc.1)); omega
    · injection h with h; subst h
      have := g.later (by omega)
      have : K * TT.sizes [] = 0 := by simp [TT.sizes]
      omega
    · have := g.later (by omega); omega
  | @fail c m k k' h h' =>
    have g := ha _ _ _ h
    have g' := hb _ _ _ h'
    refine ⟨fun m h => (by cases h), fun _ m h => (by cases h), fun hc => ?_, fun m h => (by cases h), ?_⟩
    · obtain rfl := g.still hc.1 m rfl
      have h1 := g.quiet (.inr (.inl hc.1))
      have h2 := g'.quiet (.inr (.inl (hc.2 (g.null rfl))))
      omega
    · by_cases hm : Clean env a m
      · have h1 := g.cleanLater (by omega) rfl hm
        have h2 := g'.later (by omega)
        omega
      · have h1 := g.later (by omega)
        have h2 := g'.quiet (.inr (.inl (hd.first m hm).1))
        omega
  | @more c m m' o k k' k'' h h' _ ih =>
    have g := ha _ _ _ h
    have g' := hb _ _ _ h'
    have ne : ¬ (m = c ∧ m' = m) := fun ⟨h1, h2⟩ => by
      subst h2; subst h1
      exact hd.rounds ⟨g.null rfl, g'.null rfl⟩
    have le1 := g.le rfl
    have le2 := g'.le rfl
    -- a clean round pays for itself
    have round : Clean env a m → Clean env b m' → k + k' + K * TT.sizes m' ≤ K * TT.sizes c := by
      intro c1 c2
      by_cases hm : m = c
      · have h1 := g.quiet (.inr (.inr ⟨by rw [hm], by rw [← hm]; exact c1⟩))
        have h2 := g'.cleanReads B hK rfl (fun e => ne ⟨hm, e⟩) c2
        subst hm
        omega
      · have h1 := g.cleanReads B hK rfl hm c1
        have h2 := g'.cleanLater (by omega) rfl c2
        omega
    refine ⟨fun n ho => ?_, fun hc n ho => ?_, fun hc => ?_, fun n ho hcl => ?_, ?_⟩
    · have lt : TT.sizes m' < TT.sizes c := by
        by_cases hm : m = c
        · subst hm; exact g'.lt rfl fun e => ne ⟨rfl, e⟩
        · exact Nat.lt_of_le_of_lt le2 (g.lt rfl hm)
      rcases ih.moves n ho with rfl | h
      · exact .inr lt
      · exact .inr (Nat.lt_trans h lt)
    · obtain rfl := g.still hc.1 m rfl
      obtain rfl := g'.still (hc.2 (g.null rfl)) m' rfl
      exact absurd ⟨rfl, rfl⟩ ne
    · obtain rfl := g.still hc.1 m rfl
      obtain rfl := g'.still (hc.2 (g.null rfl)) m' rfl
      exact absurd ⟨rfl, rfl⟩ ne
    · by_cases c1 : Clean env a m
      · by_cases c2 : Clean env b m'
        · have h1 := round c1 c2
          have h2 := ih.clean n ho hcl
          omega
        · obtain rfl := ih.still (hd.second m' c2) n ho
          exact absurd hcl.2.1 c2
      · obtain rfl := g'.still (hd.first m c1).1 m' rfl
        have hbn := g'.null rfl
        obtain rfl := ih.still ⟨(hd.first _ c1).2 hbn, fun han => (hd.first _ c1).1⟩ n ho
        exact absurd (hcl.2.2 hbn) c1
    · by_cases c1 : Clean env a m
      · by_cases c2 : Clean env b m'
        · have h1 := round c1 c2
          have h2 := ih.all
          omega
        · have h1 := g.cleanLater (by omega) rfl c1
          have h2 := g'.later (by omega)
          have h3 := ih.closed (hd.second m' c2)
          omega
      · obtain rfl := g'.still (hd.first m c1).1 m' rfl
        have hbn := g'.null rfl
        have h1 := g.later (by omega)
        have h2 := g'.quiet (.inr (.inl (hd.first _ c1).1))
        have h3 := ih.closed ⟨(hd.first _ c1).2 hbn, fun han => (hd.first _ c1).1⟩
        omega

/-- Bounds for rounds at the start. -/
structure PairFirst (env : Env) (K B b d : Nat) (x y : Ty) (c : List TT) (o : Option (List TT)) (k : Nat) : Prop where
  quiet : TT.sizes c = 0 ∨ PairClosed env x y c ∨ (o = some c ∧ PairClean env x y c) → k ≤ 2 * b
  reads : ∀ m, o = some m → m ≠ c → PairClean env x y m → k + K * TT.sizes m + K ≤ K * TT.sizes c + d + 4 * B
  all : 0 < TT.sizes c → k + K ≤ K * TT.sizes c + d + 6 * B

theorem pair_first {env : Env} {K B D b d : Nat} (hK : D + B ≤ K) (hb : b ≤ B) {x y : Ty} (hd : PairDisjoint env x y) {c : List TT}
    {o : Option (List TT)} {k : Nat} (hx : ∀ c o k, S x c o k → Good env K B D x c o k) (hy : ∀ c o k, S y c o k → Good env K B D y c o k)
    (hx' : ∀ c o k, S x c o k → Good env K b d x c o k) (hy' : CanBeEmpty env x → ∀ c o k, S y c o k → Good env K b d y c o k)
    (h : PairS S x y c o k) : PairFirst env K B b d x y c o k := by
  have pos : 0 < TT.sizes c → K ≤ K * TT.sizes c := fun h => Nat.le_mul_of_pos_right _ h
  cases h with
  | out => exact ⟨fun _ => Nat.zero_le _, fun m h => (by cases h), fun h => (by have := pos h; omega)⟩
  | done =>
    exact ⟨fun _ => Nat.zero_le _, fun m h hm => (by injection h with h; exact absurd h.symm hm), fun h => (by have := pos h; omega)⟩
  | stop h =>
    have g := hx' _ _ _ h
    refine ⟨fun hq => ?_, fun m h hm => (by injection h with h; exact absurd h.symm hm), fun hz => ?_⟩
    · have := g.quiet (by
        rcases hq with h | h | h
        · exact .inl h
        · exact .inr (.inl h.1)
        · exact .inr (.inl h.2.1))
      omega
    · have := g.all hz; omega
  | stuck h =>
    have g := hx' _ _ _ h
    refine ⟨fun hq => ?_, fun m h => (by cases h), fun hz => ?_⟩
    · have := g.quiet (by
        rcases hq with h | h | h
        · exact .inl h
        · exact .inr (.inl h.1)
        · cases h.1)
      omega
    · have := g.all hz; omega
  | last h =>
    have g := hx' _ _ _ h
    refine ⟨fun hq => ?_, fun m h hm hc => ?_, fun hz => ?_⟩
    · have := g.quiet (by
        rcases hq with h | h | h
        · exact .inl h
        · exact .inr (.inl h.1)
        · exact .inr (.inl h.2.1))
      omega
    · have h1 := g.all (by have := g.lt h hm; omega)
      injection h with h; subst h
      have : K * TT.sizes [] = 0 := by simp [TT.sizes]
      omega
    · have := g.all hz; omega
  | @fail _ m k k' h h' =>
    have g := hx' _ _ _ h
    have gB := hx _ _ _ h
    have g' := hy _ _ _ h'
    refine ⟨fun hq => ?_, fun m h => (by cases h), fun hz => ?_⟩
    · have hm : m = c := by
        rcases hq with h | h | h
        · by_cases hm : m = c
          · exact hm
          · have := g.lt rfl hm; omega
        · exact g.still h.1 m rfl
        · cases h.1
      subst hm
      have g'' := hy' (g.null rfl) _ _ _ h'
      rcases hq with h | h | h
      · have h1 := g.quiet (.inl h)
        have h2 := g''.quiet (.inl h)
        omega
      · have h1 := g.quiet (.inr (.inl h.1))
        have h2 := g''.quiet (.inr (.inl (h.2 (g.null rfl))))
        omega
      · cases h.1
    · by_cases hc : Clean env x m
      · by_cases hm : m = c
        · subst hm
          have h1 := g.quiet (.inr (.inr ⟨rfl, hc⟩))
          have h2 := (hy' (g.null rfl) _ _ _ h').all hz
          omega
        · have h1 := g.reads m rfl hm hc
          have h2 := g'.later (by omega)
          omega
      · have h1 := g.all hz
        have h2 := g'.quiet (.inr (.inl (hd.first m hc).1))
        omega
  | @more _ m m' _ k k' k'' h h' hrest =>
    have g := hx' _ _ _ h
    have gB := hx _ _ _ h
    have g' := hy _ _ _ h'
    have pg := pair_good hK hd hx hy hrest
    have ne : ¬ (m = c ∧ m' = m) := fun ⟨h1, h2⟩ => by
      subst h2; subst h1
      exact hd.rounds ⟨g.null rfl, g'.null rfl⟩
    have lt : TT.sizes m' < TT.sizes c := by
      by_cases hm : m = c
      · subst hm; exact g'.lt rfl fun e => ne ⟨rfl, e⟩
      · exact Nat.lt_of_le_of_lt (g'.le rfl) (g.lt rfl hm)
    have round : Clean env x m → Clean env y m' → k + k' + K * TT.sizes m' + K ≤ K * TT.sizes c + d + B := by
      intro c1 c2
      by_cases hm : m = c
      · have h1 := g.quiet (.inr (.inr ⟨by rw [hm], by rw [← hm]; exact c1⟩))
        have h2 := (hy' (g.null (by rw [hm])) _ _ _ h').reads m' rfl (fun e => ne ⟨hm, e⟩) c2
        subst hm
        omega
      · have h1 := g.reads m rfl hm c1
        have h2 := g'.cleanLater (by omega) rfl c2
        omega
    refine ⟨fun hq => ?_, fun n ho hn hcl => ?_, fun hz => ?_⟩
    · exfalso
      rcases hq with h | h | h
      · omega
      · obtain rfl := g.still h.1 m rfl
        obtain rfl := g'.still (h.2 (g.null rfl)) m' rfl
        exact ne ⟨rfl, rfl⟩
      · rcases pg.moves c h.1 with h | h
        · rw [h] at lt; omega
        · omega
    · by_cases c1 : Clean env x m
      · by_cases c2 : Clean env y m'
        · have h1 := round c1 c2
          have h2 := pg.clean n ho hcl
          omega
        · obtain rfl := pg.still (hd.second m' c2) n ho
          exact absurd hcl.2.1 c2
      · obtain rfl := g'.still (hd.first m c1).1 m' rfl
        have hbn := g'.null rfl
        obtain rfl := pg.still ⟨(hd.first _ c1).2 hbn, fun han => (hd.first _ c1).1⟩ n ho
        exact absurd (hcl.2.2 hbn) c1
    · by_cases c1 : Clean env x m
      · by_cases c2 : Clean env y m'
        · have h1 := round c1 c2
          have h2 := pg.all
          omega
        · have h3 := pg.closed (hd.second m' c2)
          by_cases hm : m = c
          · have h1 := g.quiet (.inr (.inr ⟨by rw [hm], by rw [← hm]; exact c1⟩))
            have h2 := (hy' (g.null (by rw [hm])) _ _ _ h').all (by rw [hm]; exact hz)
            subst hm
            omega
          · have h1 := g.reads m rfl hm c1
            have h2 := g'.later (by omega)
            omega
      · obtain rfl := g'.still (hd.first m c1).1 m' rfl
        have hbn := g'.null rfl
        have h1 := g.all hz
        have h2 := g'.quiet (.inr (.inl (hd.first _ c1).1))
        have h3 := pg.closed ⟨(hd.first _ c1).2 hbn, fun han => (hd.first _ c1).1⟩
        omega

/-- Bounds for a value and rounds. -/
structure ListGood (env : Env) (K B b d : Nat) (t p : Ty) (c : List TT) (o : Option (List TT)) (k : Nat) : Prop where
  moves : ∀ m, o = some m → (m = c ∧ CanBeEmpty env t) ∨ TT.sizes m < TT.sizes c
  still : PairClosed env t p c → ∀ m, o = some m → m = c
  quiet : TT.sizes c = 0 ∨ PairClosed env t p c ∨ (o = some c ∧ PairClean env p t c) → k ≤ 3 * b
  reads : ∀ m, o = some m → m ≠ c → PairClean env p t m → k + K * TT.sizes m + K ≤ K * TT.sizes c + d + 5 * B
  all : 0 < TT.sizes c → k + K ≤ K * TT.sizes c + d + 7 * B

theorem list_good {env : Env} {K B D b d : Nat} (hK : D + B ≤ K) (hb : b ≤ B) {t p : Ty} (hd : PairDisjoint env p t) {c : List TT}
    {o : Option (List TT)} {k : Nat} (ht : ∀ c o k, S t c o k → Good env K B D t c o k) (hp : ∀ c o k, S p c o k → Good env K B D p c o k)
    (ht' : ∀ c o k, S t c o k → Good env K b d t c o k) (hp' : CanBeEmpty env t → ∀ c o k, S p c o k → Good env K b d p c o k)
    (h : ListS S t p c o k) : ListGood env K B b d t p c o k := by
  cases h with
  | head h =>
    have g := ht' _ _ _ h
    refine ⟨fun m h => (by cases h), fun _ m h => (by cases h), fun hq => ?_, fun m h => (by cases h), fun hz => ?_⟩
    · have := g.quiet (by
        rcases hq with h | h | h
        · exact .inl h
        · exact .inr (.inl h.1)
        · cases h.1)
      omega
    · have := g.all hz; omega
  | @list m _ k k' h hrest =>
    have g := ht' _ _ _ h
    have pg := pair_good hK hd hp ht hrest
    have pf : m = c → PairFirst env K B b d p t m o k' := fun e => pair_first hK hb hd hp ht (hp' (g.null (by rw [e]))) (fun _ => ht') hrest
    have pc : PairClosed env t p c → m = c ∧ PairClosed env p t m := fun hc => by
      have hm := g.still hc.1 m rfl
      subst hm
      exact ⟨rfl, hc.2 (g.null rfl), fun _ => hc.1⟩
    refine ⟨fun n ho => ?_, fun hc n ho => ?_, fun hq => ?_, fun n ho hn hcl => ?_, fun hz => ?_⟩
    · rcases g.moves m rfl with ⟨rfl, h1⟩ | h1
      · exact (pg.moves n ho).imp (fun h => ⟨h, h1⟩) id
      · rcases pg.moves n ho with rfl | h2
        · exact .inr h1
        · exact .inr (Nat.lt_trans h2 h1)
    · obtain ⟨h1, h2⟩ := pc hc
      rw [← h1]; exact pg.still h2 n ho
    · rcases hq with h0 | hc | ⟨ho, hcl⟩
      · have hm : m = c := by
          by_cases hm : m = c
          · exact hm
          · have := g.lt rfl hm; omega
        have h1 := g.quiet (.inl h0)
        have h2 := (pf hm).quiet (.inl (by rw [hm]; exact h0))
        omega
      · obtain ⟨hm, hcp⟩ := pc hc
        have h1 := g.quiet (.inr (.inl hc.1))
        have h2 := (pf hm).quiet (.inr (.inl hcp))
        omega
      · have hm : m = c := by
          by_cases hm : m = c
          · exact hm
          · have := g.lt rfl hm
            rcases pg.moves c ho with h | h
            · exact h.symm
            · omega
        have h1 := g.quiet (.inr (.inr ⟨by rw [hm], hcl.2.1⟩))
        have h2 := (pf hm).quiet (.inr (.inr (by rw [hm]; exact ⟨ho, hcl⟩)))
        omega
    · by_cases hc : Clean env t m
      · by_cases hm : m = c
        · have h1 := g.quiet (.inr (.inr ⟨by rw [hm], by rw [← hm]; exact hc⟩))
          have h2 := (pf hm).reads n ho (by rw [hm]; exact hn) hcl
          subst hm
          omega
        · have h1 := g.reads m rfl hm hc
          have h2 := pg.clean n ho hcl
          omega
      · obtain rfl := pg.still (hd.second m hc) n ho
        exact absurd hcl.2.1 hc
    · by_cases hc : Clean env t m
      · by_cases hm : m = c
        · have h1 := g.quiet (.inr (.inr ⟨by rw [hm], by rw [← hm]; exact hc⟩))
          have h2 := (pf hm).all (by rw [hm]; exact hz)
          subst hm
          omega
        · have h1 := g.reads m rfl hm hc
          have h2 := pg.all
          omega
      · have h1 := g.all hz
        have h2 := pg.closed (hd.second m hc)
        omega

/-- Bounds for rounds of one type. -/
structure ItemGood (env : Env) (K B : Nat) (t : Ty) (c : List TT) (o : Option (List TT)) (k : Nat) : Prop where
  moves : ∀ m, o = some m → m = c ∨ TT.sizes m < TT.sizes c
  still : Closed env t c → ∀ m, o = some m → m = c
  closed : Closed env t c → k ≤ B
  clean : ∀ m, o = some m → Closed env t m → Clean env t m → k + K * TT.sizes m ≤ K * TT.sizes c + B
  all : k ≤ K * TT.sizes c + 2 * B

theorem item_good {env : Env} {K B D : Nat} (hK : D ≤ K) {t : Ty} (hd : ∀ c, ¬ Clean env t c → Closed env t c) (hn : ¬ CanBeEmpty env t) {c : List TT}
    {o : Option (List TT)} {k : Nat} (ht : ∀ c o k, S t c o k → Good env K B D t c o k) (h : ItemS S t c o k) : ItemGood env K B t c o k := by
  induction h with
  | out => exact ⟨fun m h => (by cases h), fun _ m h => (by cases h), fun _ => Nat.zero_le _, fun m h => (by cases h), Nat.zero_le _⟩
  | stop h =>
    have g := ht _ _ _ h
    refine ⟨fun m h => .inl (by injection h with h; exact h.symm), fun _ m h => (by injection h with h; exact h.symm), fun hc => ?_, fun m h hc _ => ?_, ?_⟩
    · have := g.quiet (.inr (.inl hc)); omega
    · injection h with h; subst h
      have := g.quiet (.inr (.inl hc)); omega
    · have := g.later hK; omega
  | stuck h =>
    have g := ht _ _ _ h
    refine ⟨fun m h => (by cases h), fun _ m h => (by cases h), fun hc => ?_, fun m h => (by cases h), ?_⟩
    · have := g.quiet (.inr (.inl hc)); omega
    · have := g.later hK; omega
  | @more c m o k k' h _ ih =>
    have g := ht _ _ _ h
    have hm : m ≠ c := fun e => hn (g.null (by rw [e]))
    have lt := g.lt rfl hm
    refine ⟨fun n ho => ?_, fun hc n ho => ?_, fun hc => ?_, fun n ho h1 h2 => ?_, ?_⟩
    · rcases ih.moves n ho with rfl | h
      · exact .inr lt
      · exact .inr (Nat.lt_trans h lt)
    · exact absurd (g.still hc m rfl) hm
    · exact absurd (g.still hc m rfl) hm
    · by_cases hc : Clean env t m
      · have h3 := g.cleanReads 0 (by omega) rfl hm hc
        have h4 := ih.clean n ho h1 h2
        omega
      · obtain rfl := ih.still (hd m hc) n ho
        exact absurd h2 hc
    · by_cases hc : Clean env t m
      · have h3 := g.cleanReads 0 (by omega) rfl hm hc
        have h4 := ih.all
        omega
      · have h3 := g.later hK
        have h4 := ih.closed (hd m hc)
        omega

/-- Bounds for rounds of one type, at the start. -/
structure ItemFirst (env : Env) (K B b d : Nat) (t : Ty) (c : List TT) (o : Option (List TT)) (k : Nat) : Prop where
  quiet : TT.sizes c = 0 ∨ Closed env t c ∨ (o = some c ∧ Closed env t c) → k ≤ b
  reads : ∀ m, o = some m → m ≠ c → Closed env t m → Clean env t m → k + K * TT.sizes m + K ≤ K * TT.sizes c + d + B
  all : 0 < TT.sizes c → k + K ≤ K * TT.sizes c + d + 2 * B

theorem item_first {env : Env} {K B D b d : Nat} (hK : D ≤ K) {t : Ty} (hd : ∀ c, ¬ Clean env t c → Closed env t c) (hn : ¬ CanBeEmpty env t)
    {c : List TT} {o : Option (List TT)} {k : Nat} (ht : ∀ c o k, S t c o k → Good env K B D t c o k) (ht' : ∀ c o k, S t c o k → Good env K b d t c o k)
    (h : ItemS S t c o k) : ItemFirst env K B b d t c o k := by
  have pos : 0 < TT.sizes c → K ≤ K * TT.sizes c := fun h => Nat.le_mul_of_pos_right _ h
  have q : TT.sizes c = 0 ∨ Closed env t c ∨ (o = some c ∧ Closed env t c) → TT.sizes c = 0 ∨ Closed env t c := by
    rintro (h | h | h)
    · exact .inl h
    · exact .inr h
    · exact .inr h.2
  cases h with
  | out => exact ⟨fun _ => Nat.zero_le _, fun m h => (by cases h), fun h => (by have := pos h; omega)⟩
  | stop h =>
    have g := ht' _ _ _ h
    refine ⟨fun hq => ?_, fun m h hm => (by injection h with h; exact absurd h.symm hm), fun hz => ?_⟩
    · exact g.quiet ((q hq).imp id .inl)
    · have := g.all hz; omega
  | stuck h =>
    have g := ht' _ _ _ h
    refine ⟨fun hq => ?_, fun m h => (by cases h), fun hz => ?_⟩
    · exact g.quiet ((q hq).imp id .inl)
    · have := g.all hz; omega
  | @more _ m _ k k' h hrest =>
    have g := ht' _ _ _ h
    have ig := item_good hK hd hn ht hrest
    have hm : m ≠ c := fun e => hn (g.null (by rw [e]))
    have lt := g.lt rfl hm
    refine ⟨fun hq => ?_, fun n ho hn h1 h2 => ?_, fun hz => ?_⟩
    · rcases q hq with h | h
      · omega
      · exact absurd (g.still h m rfl) hm
    · by_cases hc : Clean env t m
      · have h3 := g.reads m rfl hm hc
        have h4 := ig.clean n ho h1 h2
        omega
      · obtain rfl := ig.still (hd m hc) n ho
        exact absurd h2 hc
    · by_cases hc : Clean env t m
      · have h3 := g.reads m rfl hm hc
        have h4 := ig.all
        omega
      · have h3 := g.all hz
        have h4 := ig.closed (hd m hc)
        omega

/-! ### one implementation -/

omit [Ext] in
theorem lead_step {env : Env} {t x u : Ty} (h : StartsWith env t x) (hl : Lead env x u) : Lead env t u := by
  refine ⟨hl.1, .inr ?_⟩
  rcases hl.2 with rfl | hc
  · exact .one h
  · exact .more h hc

theorem pairDisjoint_of {env : Env} {x y : Ty} (h1 : SeqDisjoint env [x, y, x]) (h2 : SeqDisjoint env [y, x, y]) (hr : ¬ (CanBeEmpty env x ∧ CanBeEmpty env y)) :
    PairDisjoint env x y := by
  refine ⟨fun c hc => ?_, fun c hc => ?_, hr⟩
  · have h := closed_of_unclean h1 hc
    exact ⟨h.head, fun hy => (h.tail hy).head⟩
  · have h := closed_of_unclean h2 hc
    exact ⟨h.head, fun hy => (h.tail hy).head⟩

omit [Ext] in
theorem next_sum {ts rest : List TT} {t : TT} (h : Next ts t rest) : t.size + TT.sizes rest ≤ TT.sizes ts := by
  induction h with
  | here => simp [TT.sizes]
  | @enter inner sp ts t rest _ ih =>
    have h1 : TT.sizes (inner ++ ts) ≤ TT.sizes (.group .none inner sp :: ts) := by
      rw [sizes_append]; simp only [TT.sizes, TT.size]; omega
    omega

end Parsel
