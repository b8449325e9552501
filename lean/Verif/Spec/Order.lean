import Verif.Model.Order
import Verif.Spec.Progress

/-
Specification vocabulary: what the order of nodes means, and what rustc requires of `#[derive(Ord)]`.
-/

namespace Parsel.Spec

variable [Ext]

/-- The first `<` that is found from left to right. -/
inductive Lex {α : Type} (eq lt : α → α → Prop) : List α → List α → Prop
  /-- the first one is a proper prefix -/
  | stop {b bs} : Lex eq lt [] (b :: bs)
  | here {a b as bs} : lt a b → Lex eq lt (a :: as) (b :: bs)
  | next {a b as bs} : eq a b → Lex eq lt as bs → Lex eq lt (a :: as) (b :: bs)

/-- `l` is smaller than `m`, for literals of one type: `false < true`, numbers by value, characters by code point, texts and byte strings lexicographically. -/
inductive LitBelow (f : Ext.F → Ext.F → Ordering) : LitVal → LitVal → Prop
  | bool : LitBelow f (.bool false) (.bool true)
  | byte {a b} : a.val < b.val → LitBelow f (.byte a) (.byte b)
  | int {a b} : a < b → LitBelow f (.int a) (.int b)
  | uint {a b} : a < b → LitBelow f (.uint a) (.uint b)
  | float {a b} : f a b = .lt → LitBelow f (.float a) (.float b)
  | char {a b} : a < b → LitBelow f (.char a) (.char b)
  | str {a b} : Lex Eq (· < ·) a b → LitBelow f (.str a) (.str b)
  | byteStr {a b} : Lex Eq (fun x y => x.val < y.val) a b → LitBelow f (.byteStr a) (.byteStr b)

mutual
/-- `v` is smaller than `w`, both of the same type. -/
inductive Below (env : Env) (c : FloatCmp Ext.F) (f : Ext.F → Ext.F → Ordering) : Ty → Val → Val → Prop
  /-- identifiers by their text -/
  | ident {l x y sp sp'} : Lex Eq (· < ·) x y → Below env c f (.leaf l) (.leaf l (.ident x sp)) (.leaf l (.ident y sp'))
  | lit {l a b sp sp'} : LitBelow f a b → Below env c f (.leaf l) (.leaf l (.lit a sp)) (.leaf l (.lit b sp'))
  /-- one field of the struct -/
  | struct {x fields vs ws} : env x = .struct fields → BelowL env c f (fieldTypes fields) vs ws →
      Below env c f (.named x) (.node (.ctor x x) vs) (.node (.ctor x x) ws)
  /-- a variant that is declared earlier -/
  | earlier {x variants pre w mid w' post vs ws} : env x = .enum variants → variants = pre ++ w :: mid ++ w' :: post →
      Below env c f (.named x) (.node (.ctor x w.ident) vs) (.node (.ctor x w'.ident) ws)
  /-- one field of the same variant -/
  | variant {x variants w vs ws} : env x = .enum variants → w ∈ variants → BelowL env c f (fieldTypes w.fields) vs ws →
      Below env c f (.named x) (.node (.ctor x w.ident) vs) (.node (.ctor x w.ident) ws)
  | boxed {t v w} : Below env c f t v w → Below env c f (.boxed t) v w
  | leftRight {l r v w} : Below env c f (.either l r) (.node .eitherLeft [v]) (.node .eitherRight [w])
  | left {l r v w} : Below env c f l v w → Below env c f (.either l r) (.node .eitherLeft [v]) (.node .eitherLeft [w])
  | right {l r v w} : Below env c f r v w → Below env c f (.either l r) (.node .eitherRight [v]) (.node .eitherRight [w])
/-- The fields are equal (`==`) up to one that is smaller. -/
inductive BelowL (env : Env) (c : FloatCmp Ext.F) (f : Ext.F → Ext.F → Ordering) : List Ty → List Val → List Val → Prop
  | here {t ts v vs w ws} : Below env c f t v w → BelowL env c f (t :: ts) (v :: vs) (w :: ws)
  | next {t ts v vs w ws} : v.eq c w = true → BelowL env c f ts vs ws → BelowL env c f (t :: ts) (v :: vs) (w :: ws)
end

/-- What is assumed about `cmp` of `NotNan<f64>` (EXTERNAL): a total order that agrees with `==`. -/
structure FloatOrdLaws (c : FloatCmp Ext.F) (f : Ext.F → Ext.F → Ordering) : Prop where
  eq : ∀ x y, f x y = .eq ↔ c.eq x y = true
  swap : ∀ x y, f y x = (f x y).swap
  trans : ∀ x y z, f x y = .lt → f y z = .lt → f x z = .lt

/-- What rustc requires of the user types that derive `Ord`: the types of all fields have an `Ord` impl; variants have different names. -/
structure DerivesOrd (env : Env) (derives : Text → Bool) : Prop where
  struct : ∀ x fields, derives x = true → env x = .struct fields → ∀ t ∈ fieldTypes fields, t.ordered derives = true
  enum : ∀ x variants, derives x = true → env x = .enum variants → ∀ w ∈ variants, ∀ t ∈ fieldTypes w.fields, t.ordered derives = true
  names : ∀ x variants, derives x = true → env x = .enum variants → (variants.map (·.ident)).Nodup

end Parsel.Spec
