import Verif.Spec.Build
import Verif.Props.Containers
import Verif.Props.RoundTrip
import Verif.Props.Source
import Verif.Props.Peg
import Verif.Props.Layout

/-!
C68: nodes that are built or changed by hand are as good as parsed ones.
C69: delimiters, identifiers.
-/

namespace Parsel

open Spec

section
variable [Ext]

theorem hasTys_zip {env : Env} : ∀ {ts : List Ty} {vs : List Val}, ts.length = vs.length → (∀ tv ∈ ts.zip vs, HasTy env tv.1 tv.2) → HasTys env ts vs
  | [], [], _, _ => .nil
  | _ :: _, _ :: _, h, ha => .cons (ha _ (.head _)) (hasTys_zip (by simpa using h) fun tv hm => ha tv (.tail _ hm))

theorem hasTys_replicate {env : Env} {t : Ty} : ∀ {vs : List Val}, (∀ v ∈ vs, HasTy env t v) → HasTys env (List.replicate vs.length t) vs
  | [], _ => .nil
  | _ :: _, h => .cons (h _ (.head _)) (hasTys_replicate fun v hm => h v (.tail _ hm))

theorem alternate_length (t p : Ty) (n : Nat) : (alternate t p n).length = n := by
  induction n generalizing t p with
  | zero => rfl
  | succ n ih => simp [alternate, ih]

theorem interleave_length (s : Punct Val Val) : (Val.interleave s).length = 2 * s.inner.length + (if s.last.isSome then 1 else 0) := by
  rw [Val.interleave, List.length_append]
  have : ∀ l : List (Val × Val), (l.flatMap fun x => [x.1, x.2]).length = 2 * l.length := by
    intro l
    induction l with
    | nil => rfl
    | cons x l ih => simp only [List.flatMap_cons, List.length_append, ih]; simp; omega
  rw [this]
  cases s.last <;> rfl

theorem hasTys_interleave {env : Env} {t p : Ty} (s : Punct Val Val) (h1 : ∀ v ∈ s.values, HasTy env t v) (h2 : ∀ v ∈ seps s, HasTy env p v) :
    HasTys env (alternate t p (2 * s.inner.length + (if s.last.isSome then 1 else 0))) (Val.interleave s) := by
  obtain ⟨inner, last⟩ := s
  induction inner with
  | nil =>
    cases last with
    | none => exact .nil
    | some v => exact .cons (h1 v (by simp [Punct.values])) .nil
  | cons x inner ih =>
    have := ih (fun v hv => h1 v (by simp only [Punct.values, List.map_cons, List.cons_append, List.mem_cons]; exact .inr hv))
      (fun v hv => h2 v (by simp only [seps, List.map_cons, List.mem_cons]; exact .inr hv))
    rw [show 2 * (x :: inner).length + (if last.isSome then 1 else 0) = (2 * inner.length + (if last.isSome then 1 else 0)) + 1 + 1 by simp; omega]
    exact .cons (h1 x.1 (by simp [Punct.values])) (.cons (h2 x.2 (by simp [seps])) this)

theorem separated_last {env : Env} {t p : Ty} {s : Separated Val Val} (h : HasTy env (.separated t p) (.ofSeparated s)) : s.inner.last.isSome = true := by
  cases h with
  | separated h =>
    have := hasTys_length h
    rw [alternate_length, interleave_length] at this
    cases hl : s.inner.last.isSome with
    | true => rfl
    | false => rw [hl] at this; simp at this; omega

theorem hasTy_separated {env : Env} {t p : Ty} {s : Separated Val Val} (hl : s.inner.last.isSome = true) (h1 : ∀ v ∈ s.inner.values, HasTy env t v)
    (h2 : ∀ v ∈ seps s.inner, HasTy env p v) : HasTy env (.separated t p) (.ofSeparated s) := by
  have := hasTys_interleave s.inner h1 h2
  rw [if_pos hl] at this
  exact .separated this

/-- **C68** (representation invariants). A node that was built or changed in any way that the public API allows is a value of its type, just as a parsed
one (C52): a `CustomIdent` is not a keyword, a `Separated` is neither empty nor ends in a separator, .... -/
theorem C68_built {env : Env} {t : Ty} {v : Val} (h : Built env t v) : HasTy env t v := by
  induction h with
  | parsed h => exact parse_hasTy _ _ _ _ _ _ h
  | @ident kws id c h =>
    obtain ⟨rfl, hk⟩ := (C25_try_from kws id.1 id.2 c).mp h
    exact .leaf (.customIdent hk)
  | word h => exact .leaf (.customIdent (by simp))
  | setSpan sp' _ ih => cases ih with | leaf h => cases h with | customIdent h => exact .leaf (.customIdent h)
  | leaf _ h => exact .leaf h
  | struct he hl _ ih => exact .struct he (hasTys_zip hl ih)
  | enum he hw hl _ ih => exact .enum he hw (hasTys_zip hl ih)
  | boxed _ ih => exact .boxed ih
  | @maybe p t o _ _ ih1 ih2 =>
    cases o with
    | none => exact .absent
    | some x => exact .present (ih1 x rfl) (ih2 x rfl)
  | paren _ _ ih => exact .paren ih
  | bracket _ _ ih => exact .bracket ih
  | brace _ _ ih => exact .brace ih
  | @parenOf t v w _ h ih =>
    obtain ⟨ts, _, rfl⟩ := Option.map_eq_some_iff.mp h
    exact .paren ih
  | @bracketOf t v w _ h ih =>
    obtain ⟨ts, _, rfl⟩ := Option.map_eq_some_iff.mp h
    exact .bracket ih
  | @braceOf t v w _ h ih =>
    obtain ⟨ts, _, rfl⟩ := Option.map_eq_some_iff.mp h
    exact .brace ih
  | @punctuated t p s _ _ ih1 ih2 => exact .punctuated (hasTys_interleave s ih1 ih2)
  | @separated t p x s h _ _ ih1 ih2 =>
    obtain ⟨he, rfl⟩ := (C27_try_from x s).mp h
    exact hasTy_separated ((endsInValue_iff _).mp he) ih1 ih2
  | @change t p dflt op s s' _ h _ _ ih ih1 ih2 =>
    rcases run_some dflt op s (separated_last ih) with ⟨s1, h1, h2, _⟩ | ⟨h1, _⟩
    · rw [h] at h1; injection h1 with h1; subst h1
      exact hasTy_separated h2 ih1 ih2
    · rw [h] at h1; cases h1
  | any _ ih => exact .any (hasTys_replicate ih)
  | left _ ih => exact .leftRhs ih
  | leftBin _ _ _ ih1 ih2 ih3 => exact .leftBin ih1 ih2 ih3
  | right _ ih => exact .rightLhs ih
  | rightBin _ _ _ ih1 ih2 ih3 => exact .rightBin ih1 ih2 ih3
  | eitherLeft _ ih => exact .left ih
  | eitherRight _ ih => exact .right ih

/-- **C68** (identifiers). In particular no program can come by a `CustomIdent` whose spelling is one of its keywords. -/
theorem C68_never_keyword {env : Env} {kws : List Text} {v : Val} (h : Built env (.leaf (.customIdent kws)) v) :
    ∃ x sp, v = .leaf (.customIdent kws) (.ident x sp) ∧ x ∉ kws := by
  have := C68_built h
  cases this with
  | leaf hl => cases hl with | customIdent hk => exact ⟨_, _, rfl, hk⟩

/-- **C68** (sequences). In particular no program can come by a `Separated` that is empty or ends in a separator, so none of its methods panics
(other than those with an index). -/
theorem C68_never_empty {env : Env} {t p : Ty} {s : Separated Val Val} (h : Built env (.separated t p) (.ofSeparated s)) :
    EndsInValue s.inner ∧ s.len.isSome ∧ s.first.isSome ∧ s.last.isSome ∧ s.intoFirstRest.isSome ∧ s.intoLastRest.isSome :=
  C27_history (.node .any []) [] s s ((endsInValue_iff _).mpr (separated_last (C68_built h))) rfl

/-- **C68** (reading back). In an LL(1) grammar, printing a node that was built or changed by hand, and parsing the tokens, gives the node back. -/
theorem C68_reads_back (laws : FloatLaws) {env : Env} {G : List Ty} {n : Nat} (hG : ll1 env G n = true) {t : Ty} (ht : t ∈ G)
    (he : closesAtEnd env G n t = true) {v : Val} (hv : Built env t v) (hs : Survives v) {ts : List TT} (hp : v.toTokens = some ts) : Accepts env t ts v :=
  C12_checked laws hG ht he (C68_built hv) hs hp

theorem exists_interleave {Q R : Val → Prop} (t p : Ty) (K : Ty → Val → Prop) (hQ : ∀ v, K t v → Q v) (hR : ∀ v, K p v → R v) : ∀ (n : Nat) (vs : List Val),
    vs.length = n → (∀ tv ∈ (alternate t p n).zip vs, K tv.1 tv.2) →
    ∃ s : Punct Val Val, Val.interleave s = vs ∧ (∀ v ∈ s.values, Q v) ∧ (∀ v ∈ seps s, R v) ∧ (s.last.isSome = true ↔ n % 2 = 1)
  | 0, [], _, _ => ⟨⟨[], none⟩, rfl, by simp [Punct.values], by simp [seps], by simp⟩
  | 1, [v], _, h => ⟨⟨[], some v⟩, rfl, by
      intro w hw
      simp only [Punct.values, List.map_nil, List.nil_append, Option.toList_some, List.mem_singleton] at hw
      subst hw; exact hQ _ (h (t, w) (by simp [alternate])), by simp [seps], by simp⟩
  | n + 2, v :: w :: vs, hl, h => by
    obtain ⟨s, h1, h2, h3, h4⟩ := exists_interleave t p K hQ hR n vs (by simpa using hl)
      (fun tv hm => h tv (by simp only [alternate, List.zip_cons_cons, List.mem_cons]; exact .inr (.inr hm)))
    refine ⟨⟨(v, w) :: s.inner, s.last⟩, ?_, ?_, ?_, ?_⟩
    · rw [← h1]; rfl
    · intro u hu
      simp only [Punct.values, List.map_cons, List.cons_append, List.mem_cons] at hu
      rcases hu with rfl | hu
      · exact hQ _ (h (t, u) (by simp [alternate]))
      · exact h2 u hu
    · intro u hu
      simp only [seps, List.map_cons, List.mem_cons] at hu
      rcases hu with rfl | hu
      · exact hR _ (h (p, u) (by simp [alternate]))
      · exact h3 u hu
    · rw [h4]; omega

/-- **C68** (the invariants are exact). Conversely every value of a type can be built. -/
theorem C68_complete {env : Env} {t : Ty} {v : Val} (h : HasTy env t v) : Built env t v := by
  refine HasTy.rec (motive_1 := fun t v _ => Built env t v) (motive_2 := fun ts vs _ => ts.length = vs.length ∧ ∀ tv ∈ ts.zip vs, Built env tv.1 tv.2)
    ?_ ?_ ?_ ?_ ?_ ?_ ?_ ?_ ?_ ?_ ?_ ?_ ?_ ?_ ?_ ?_ ?_ ?_ ?_ ?_ h
  · intro l v h
    cases h with
    | customIdent hk => exact .ident (c := (_, _)) ((C25_try_from _ _ _ _).mpr ⟨rfl, hk⟩)
    | _ => exact .leaf (by simp) (by constructor <;> assumption)
  · intro x fields vs he _ ih; exact .struct he ih.1 ih.2
  · intro x variants w vs he hw _ ih; exact .enum he hw ih.1 ih.2
  · intro t v _ ih; exact .boxed ih
  · intro p t; exact .maybe (o := none) (by simp) (by simp)
  · intro p t v w _ _ ih1 ih2; exact .maybe (o := some (v, w)) (by rintro x ⟨⟩; exact ih1) (by rintro x ⟨⟩; exact ih2)
  · intro t sp v _ ih; exact .paren sp ih
  · intro t sp v _ ih; exact .bracket sp ih
  · intro t sp v _ ih; exact .brace sp ih
  · intro t p n vs _ ih
    obtain ⟨s, rfl, h2, h3, _⟩ := exists_interleave t p (Built env) (fun _ h => h) (fun _ h => h) n vs (by rw [← ih.1, alternate_length]) ih.2
    exact .punctuated h2 h3
  · intro t p n vs _ ih
    obtain ⟨s, rfl, h2, h3, h4⟩ := exists_interleave t p (Built env) (fun _ h => h) (fun _ h => h) _ vs (by rw [← ih.1, alternate_length]) ih.2
    exact .separated (x := s) (s := ⟨s⟩) ((C27_try_from _ _).mpr ⟨(endsInValue_iff _).mpr (h4.mpr (by omega)), rfl⟩) h2 h3
  · intro t n vs _ ih
    refine .any (vs := vs) fun v hv => ?_
    obtain ⟨i, hi, rfl⟩ := List.mem_iff_getElem.mp hv
    have hl := ih.1
    rw [List.length_replicate] at hl
    refine ih.2 (t, vs[i]) ?_
    rw [List.mem_iff_getElem]
    exact ⟨i, by simp; omega, by simp⟩
  · intro o r v _ ih; exact .left ih
  · intro o r l op v _ _ _ ih1 ih2 ih3; exact .leftBin ih1 ih2 ih3
  · intro o l v _ ih; exact .right ih
  · intro o l v op r _ _ _ ih1 ih2 ih3; exact .rightBin ih1 ih2 ih3
  · intro l r v _ ih; exact .eitherLeft ih
  · intro l r v _ ih; exact .eitherRight ih
  · exact ⟨rfl, by simp⟩
  · intro t ts v vs _ _ ih1 ih2
    refine ⟨by simp [ih2.1], ?_⟩
    intro tv hm
    simp only [List.zip_cons_cons, List.mem_cons] at hm
    rcases hm with rfl | hm
    · exact ih1
    · exact ih2.2 tv hm

/-! ### C69 -/

/-- **C69** (delimiters). `Paren<T>` (`Bracket<T>`, `Brace<T>`) accepts a group around exactly those tokens that `T` accepts by themselves, with the
same value, at the location of the group. -/
theorem C69_wrapped {env : Env} {g t : Ty} {d : Delim} (hg : GroupTy g d t) (ts : List TT) (sp : Span) (w : Val) :
    Accepts env g [.group d ts sp] w ↔ ∃ v, w = delimNew d v sp ∧ Accepts env t ts v := by
  have hd : d ≠ .none := by cases hg <;> simp
  rw [C63_accepts]
  constructor
  · rintro ⟨rest, h, hr⟩
    have key : ∀ {inner sp' rest' v unread l1 l2}, Next [.group d ts sp] (.group d inner sp') rest' → Matches env t inner v unread l1 → FirstUnread unread l2 →
        none = l1.or l2 → sp' = sp ∧ Accepts env t ts v := by
      intro inner sp' rest' v unread l1 l2 h1 h2 h3 h4
      cases h1 with
      | enter _ => exact absurd rfl hd
      | here _ =>
        cases l1 with
        | some x => cases h4
        | none =>
          cases l2 with
          | some x => cases h4
          | none => exact ⟨rfl, C63_accepts.mpr ⟨unread, h2, by cases h3 with | nothing h => exact h⟩⟩
    generalize hn : (none : Option Span) = left at h
    cases hg <;>
    · cases h with
      | group hg' h1 h2 h3 =>
        cases hg'
        obtain ⟨rfl, h⟩ := key h1 h2 h3 hn
        exact ⟨_, rfl, h⟩
  · rintro ⟨v, rfl, h⟩
    obtain ⟨rest, h1, h2⟩ := C63_accepts.mp h
    exact ⟨[], .group hg (.here (by simp [hd])) h1 (.nothing h2), fun x r h => by cases h⟩

/-- **C69** (rejection). And it rejects the group exactly if `T` rejects the tokens. -/
theorem C69_wrapped_rejects {env : Env} {g t : Ty} {d : Delim} (hg : GroupTy g d t) (ts : List TT) (sp : Span) :
    (∃ e, Rejects env g [.group d ts sp] e) ↔ ∃ e, Rejects env t ts e := by
  have hd : d ≠ .none := by cases hg <;> simp
  rw [C63_rejects, C63_rejects]
  have hnext : ∀ {inner sp' rest'}, Next [TT.group d ts sp] (.group d inner sp') rest' → inner = ts ∧ rest' = [] := by
    intro inner sp' rest' h
    cases h with
    | here _ => exact ⟨rfl, rfl⟩
    | enter _ => exact absurd rfl hd
  constructor
  · rintro (h | ⟨v, rest, left, h, hl⟩)
    · left
      cases hg <;>
      · cases h with
        | noGroup hg' h => cases hg'; exact absurd (.here (by simp)) (h ts sp [])
        | inGroup hg' h1 h2 => cases hg'; obtain ⟨rfl, rfl⟩ := hnext h1; exact h2
    · right
      cases hg <;>
      · cases h with
        | @group _ _ _ _ _ _ _ _ unread l1 l2 hg' h1 h2 h3 =>
          cases hg'
          obtain ⟨rfl, rfl⟩ := hnext h1
          refine ⟨_, _, _, h2, ?_⟩
          rcases hl with hl | ⟨x, r, hl⟩
          · cases h3 with
            | nothing _ => left; simpa using hl
            | token h => exact .inr ⟨_, _, h⟩
          · cases hl
  · rintro (h | ⟨v, rest, left, h, hl⟩)
    · exact .inl (.inGroup hg (.here (by simp [hd])) h)
    · right
      rcases hl with hl | ⟨x, r, hl⟩
      · obtain ⟨l2, hu⟩ : ∃ l2, FirstUnread rest l2 := by
          by_cases hn : ∃ t r, Next rest t r
          · obtain ⟨t, r, hn⟩ := hn; exact ⟨_, .token hn⟩
          · exact ⟨none, .nothing fun t r h => hn ⟨t, r, h⟩⟩
        refine ⟨_, _, _, .group hg (sp := sp) (.here (by simp [hd])) h hu, .inl ?_⟩
        cases left with
        | none => exact absurd rfl hl
        | some a => simp
      · refine ⟨_, _, _, .group hg (sp := sp) (.here (by simp [hd])) h (.token hl), .inl ?_⟩
        cases left <;> simp

/-- **C69** (making a delimited node). `Paren::new(node, span)` prints as one group around the tokens of the node, at the location given; `Paren::from(node)`,
at the location of the node.  Either panics exactly if printing the node does.  `into_parts` gives back what it was made of. -/
theorem C69_made (d : Delim) (v : Val) (sp : Span) :
    (delimNew d v sp).toTokens = v.toTokens.map (fun ts => [.group d ts sp]) ∧
    (∀ w, delimFrom d v = some w ↔ ∃ ts, v.toTokens = some ts ∧ w = delimNew d v (nodeSpan ts)) ∧
    delimIntoParts (delimNew d v sp) = some (d, sp, v) := by
  refine ⟨rfl, fun w => ?_, rfl⟩
  rw [delimFrom, Option.map_eq_some_iff]
  constructor
  · rintro ⟨ts, h, rfl⟩; exact ⟨ts, h, rfl⟩
  · rintro ⟨ts, h, rfl⟩; exact ⟨ts, h, rfl⟩

/-- **C69** (wrapping a node). If a node, printed, is accepted by its type and read back as itself, so is the delimited node. -/
theorem C69_wrap_reads_back {env : Env} {g t : Ty} {d : Delim} (hg : GroupTy g d t) {v w : Val} {ts : List TT} (hp : v.toTokens = some ts)
    (ha : Accepts env t ts v) (hw : delimFrom d v = some w) : ∃ out, w.toTokens = some out ∧ Accepts env g out w := by
  obtain ⟨ts', h1, rfl⟩ := ((C69_made d v .callSite).2.1 w).mp hw
  rw [hp] at h1; injection h1 with h1; subst h1
  refine ⟨_, by rw [(C69_made d v _).1, hp]; rfl, (C69_wrapped hg _ _ _).mpr ⟨v, rfl, ha⟩⟩

omit [Ext] in
theorem mem_takeWhile {A : Type} {p : A → Bool} : ∀ (l : List A), ∀ d ∈ l.takeWhile p, p d = true
  | [], d, h => by cases h
  | c :: cs, d, h => by
    rw [List.takeWhile_cons] at h
    split at h
    · rcases List.mem_cons.mp h with rfl | h
      · assumption
      · exact mem_takeWhile cs d h
    · cases h

/-- **C69** (moving a word). `set_span` moves the word, and does nothing else: it prints as the one identifier of the same spelling, at the new location, and
equals the same texts as before. -/
theorem C69_word_moved (kws : List Text) (x : Text) (sp sp' : Span) :
    (Val.leaf (.customIdent kws) (.ident (customIdentSetSpan (x, sp) sp').1 (customIdentSetSpan (x, sp) sp').2)).toTokens = some [.ident x sp'] ∧
    ∀ y, customIdentEqStr (customIdentSetSpan (x, sp) sp') y = customIdentEqStr (x, sp) y := ⟨rfl, fun _ => rfl⟩

/-- **C69** (words). `Word::new(text, span)` panics unless `from_str` reads the text as a word spelled just so (and not as a raw identifier); otherwise
it is the word of that spelling and location, and equals just that text. -/
theorem C69_word (env : Env) (x : Text) (sp : Span) :
    (∀ c, wordNew x sp = some c → c = (x, sp) ∧ ∀ y, customIdentEqStr c y = true ↔ x = y) ∧
    ((wordNew x sp).isSome ↔
      (∃ sp', AcceptsStr env (.leaf (.customIdent [])) x (.leaf (.customIdent []) (.ident x sp'))) ∧ startsWith "r#".toList x = false) := by
  constructor
  · intro c h
    simp only [wordNew, identNew] at h
    split at h
    · injection h with h; subst h; exact ⟨rfl, fun y => by simp [customIdentEqStr]⟩
    · cases h
  · simp only [wordNew, identNew]
    constructor
    · intro h
      have hx : identOk x = true := by
        cases hx : identOk x with
        | true => rfl
        | false => rw [hx] at h; cases h
      constructor
      · obtain ⟨ts, h1, h2⟩ := lex_layout (ts := [.ident x .callSite]) (x := [] ++ (x ++ [])) (.ident .nil ⟨by simp, by simp⟩ (.nil .nil)) (.ident (identOk_text hx) .nil)
        rw [List.nil_append, List.append_nil] at h1
        cases h2 with
        | @ident _ _ sp' _ _ hb =>
          cases hb
          exact ⟨sp', 1, by simp only [parseStr, h1]; rfl⟩
      · cases hs : startsWith "r#".toList x with
        | false => rfl
        | true =>
          obtain ⟨r, rfl⟩ := startsWith_iff.mp hs
          exact absurd hx (by
            simp only [identOk, suffixOk, show "r#".toList = ['r', '#'] from rfl, List.cons_append, List.all_cons]
            rw [show identCont '#' = false by decide]; simp)
    · rintro ⟨⟨sp', n, h⟩, hr⟩
      have hx : IdentText x := by
        unfold parseStr at h
        split at h
        · rename_i ts hl
          have hw := (lex_writable hl).1
          obtain ⟨s', hp⟩ := accepts_parses ⟨n, h⟩
          rw [C64_leaf] at hp
          obtain ⟨c, rest, h1, h2, _⟩ := hp
          injection h2 with _ h2
          subst h2
          cases h1 with
          | customIdent hn hk =>
            have h1 := (lex_writable hl).2
            rw [dissolve_next hn] at h1
            rw [← h1] at hw
            cases hw with | ident h _ => exact h
        · cases h
      have h2 : stripPrefix "r#".toList x = none := by
        unfold startsWith at hr
        cases hs : stripPrefix "r#".toList x with
        | none => rfl
        | some r => rw [hs] at hr; cases hr
      unfold IdentText lexIdentAny at hx
      rw [h2] at hx
      have : identOk x = true := by
        cases x with
        | nil => simp [lexPlainIdent] at hx
        | cons c cs =>
          simp only [lexPlainIdent] at hx
          split at hx
          · rename_i hc
            simp only [Option.some.injEq, Prod.mk.injEq, List.cons.injEq, true_and] at hx
            simp only [identOk, suffixOk, hc, List.isEmpty_cons, Bool.not_false, Bool.true_and]
            rw [List.all_eq_true]
            rw [← hx.1]
            exact fun d hd => mem_takeWhile cs d hd
          · cases hx
      simp [this]

end

section
attribute [local instance] toyExt

/-- A word that is no keyword of the small language. -/
def nameVal (x : String) : Val := .leaf (.customIdent miniWords) (.ident x.toList spA)
/-- A comma made by hand. -/
def commaVal : Val := .leaf (.punct ",".toList) (.mark [spA])

/-- A sequence made by hand and then changed: the hypotheses of C68 are met. -/
example : Built miniEnv (.separated (.leaf (.customIdent miniWords)) (.leaf (.punct ",".toList)))
    (.ofSeparated ⟨⟨[(nameVal "a", commaVal), (nameVal "b", commaVal)], some (nameVal "c")⟩⟩) := by
  have hn : ∀ x : String, x.toList ∉ miniWords → Built miniEnv (.leaf (.customIdent miniWords)) (nameVal x) :=
    fun x h => .ident (id := (x.toList, spA)) (c := (x.toList, spA)) ((C25_try_from _ _ _ _).mpr ⟨rfl, h⟩)
  have hc : Built miniEnv (.leaf (.punct ",".toList)) commaVal := .leaf (by simp) (.punct rfl)
  have ha := hn "a" (by decide +kernel)
  have hb := hn "b" (by decide +kernel)
  have hd := hn "c" (by decide +kernel)
  have h1 : Built miniEnv (.separated (.leaf (.customIdent miniWords)) (.leaf (.punct ",".toList))) (.ofSeparated ⟨⟨[(nameVal "a", commaVal)], some (nameVal "c")⟩⟩) :=
    .separated (x := ⟨[(nameVal "a", commaVal)], some (nameVal "c")⟩) rfl
      (by intro v hv; simp only [Punct.values, List.map_cons, List.map_nil, Option.toList_some, List.cons_append, List.nil_append, List.mem_cons, List.not_mem_nil, or_false] at hv
          rcases hv with rfl | rfl <;> assumption)
      (by intro v hv; simp only [seps, List.map_cons, List.map_nil, List.mem_cons, List.not_mem_nil, or_false] at hv; subst hv; exact hc)
  refine .change (dflt := commaVal) (op := .insert 1 (nameVal "b")) h1 rfl ?_ ?_
  · intro v hv; simp only [Punct.values, List.map_cons, List.map_nil, Option.toList_some, List.cons_append, List.nil_append, List.mem_cons, List.not_mem_nil, or_false] at hv
    rcases hv with rfl | rfl | rfl <;> assumption
  · intro v hv; simp only [seps, List.map_cons, List.map_nil, List.mem_cons, List.not_mem_nil, or_false] at hv
    rcases hv with rfl | rfl <;> exact hc

example : (wordNew "fn".toList spA).isSome ∧ wordNew "r#fn".toList spA = none ∧ wordNew "a b".toList spA = none ∧ wordNew [] spA = none := by decide +kernel

/-- The hypotheses of C69 are met: a name of the small language, in parentheses, is accepted where the name itself is accepted, and the wrapped name is read back. -/
example : Accepts miniEnv (.paren (.leaf (.customIdent miniWords))) [.group .paren [.ident "a".toList spA] spA] (delimNew .paren (nameVal "a") spA) ∧
    (∃ e, Rejects miniEnv (.paren (.leaf (.customIdent miniWords))) [.group .paren [.ident "a".toList spA, .ident "b".toList spA] spA] e) ∧
    ∃ w out, delimFrom .paren (nameVal "a") = some w ∧ w.toTokens = some out ∧ Accepts miniEnv (.paren (.leaf (.customIdent miniWords))) out w := by
  have hg : GroupTy (.paren (.leaf (.customIdent miniWords))) .paren (.leaf (.customIdent miniWords)) := .paren
  have ha : Accepts miniEnv (.leaf (.customIdent miniWords)) [.ident "a".toList spA] (nameVal "a") := ⟨2, rfl⟩
  refine ⟨(C69_wrapped hg _ _ _).mpr ⟨_, rfl, ha⟩, (C69_wrapped_rejects hg _ _).mpr ⟨_, 2, rfl⟩, delimNew .paren (nameVal "a") spA, ?_⟩
  obtain ⟨out, h1, h2⟩ := C69_wrap_reads_back hg (v := nameVal "a") (ts := [.ident "a".toList spA]) rfl ha (w := delimNew .paren (nameVal "a") spA) rfl
  exact ⟨out, rfl, h1, h2⟩

end

end Parsel
