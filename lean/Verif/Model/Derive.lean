import Verif.Model.Combinators

/-
The code generators of parsel_derive/src/{parse,to_tokens,util}.rs as functions from the description of an item to a small
IR of the generated code, and the meaning of that IR.  `τ` is the type of (syntactic) field types, `V` the type of field
values, `X` the type of output tokens.
-/

namespace Parsel

/-! ### Derive input (EXTERNAL `syn::DeriveInput`) -/

/-- EXTERNAL `syn::Field` without its name.  `attr` is the outcome of `deluxe::extract_attributes` (util.rs:81): the value of
`recursive`, or the error for a malformed attribute. -/
structure FieldDef (τ : Type) where
  ty : τ
  attr : Except Text Bool

/-- EXTERNAL `syn::Fields`. -/
inductive Fields (τ : Type) where
  | named (fs : List (Text × FieldDef τ))
  | unnamed (fs : List (FieldDef τ))
  | unit

/-- EXTERNAL `syn::Variant`. -/
structure VariantDef (τ : Type) where
  ident : Text
  fields : Fields τ

/-- EXTERNAL `syn::Data`. -/
inductive Data (τ : Type) where
  | struct (fields : Fields τ)
  | enum (variants : List (VariantDef τ))
  | union

/-- EXTERNAL `syn::DeriveInput`; `preds` are the predicates of the user's own `where` clause (none if absent). -/
structure DeriveInput (τ ρ : Type) where
  ident : Text
  data : Data τ
  preds : List ρ

/-- The fields of a struct or variant, in source order. -/
def Fields.defs {τ : Type} : Fields τ → List (FieldDef τ)
  | .named fs => fs.map Prod.snd
  | .unnamed fs => fs
  | .unit => []

/-! ### `#[derive(Parse)]` -/

/-- One generated initialiser `input.parse().map_err(|cause| chain_error(cause, enum_str, ctor_str, field_str))?`
(parse.rs:63-67, 80-84).  `ty` is the type that rustc infers for `input.parse()`: that of the initialised field. -/
structure FieldInit (τ : Type) where
  ty : τ
  enumStr : Text
  ctorStr : Text
  fieldStr : Text

/-- Generated `let ast_node = Ctor { inits }; Ok(ast_node)` (parse.rs:71-75, 87-90, 93-95). -/
structure CtorCode (τ : Type) where
  ctor : Text
  inits : List (FieldInit τ)

/-- Generated body of `fn parse` (parse.rs:103-113 for enums). -/
inductive ParseCode (τ : Type) where
  | struct (c : CtorCode τ)
  | enum (variants : List (CtorCode τ))

/-- EXTERNAL decimal rendering of a tuple index (`Display for usize`, used through parse.rs:82 and util.rs:302). -/
def natText (n : Nat) : Text := Nat.toDigits 10 n

/-- parse.rs:79-85 the initialisers of tuple fields, numbered from `i`. -/
def unnamedInits {τ : Type} (enumStr ctorStr : Text) : Nat → List (FieldDef τ) → List (FieldInit τ)
  | _, [] => []
  | i, f :: fs => ⟨f.ty, enumStr, ctorStr, natText i⟩ :: unnamedInits enumStr ctorStr (i + 1) fs

/-- parse.rs:44-98 `expand_fields`; `enumName = none` for structs, whose `enum_str` is the empty string (line 46). -/
def expandFields {τ : Type} (enumName : Option Text) (ctorName : Text) (fields : Fields τ) : CtorCode τ :=
  match fields with
  | .named fs => ⟨ctorName, fs.map fun f => ⟨f.2.ty, enumName.getD [], ctorName, f.1⟩⟩
  | .unnamed fs => ⟨ctorName, unnamedInits (enumName.getD []) ctorName 0 fs⟩
  | .unit => ⟨ctorName, []⟩

/-- parse.rs:39-41 `expand_struct`, 100-136 `expand_enum` / `expand_variants`, 17-21; `none` for unions (line 18). -/
def expandParseBody {τ ρ : Type} (item : DeriveInput τ ρ) : Except Text (ParseCode τ) :=
  match item.data with
  | .union => .error "unions are not supported".toList
  | .enum vs => .ok (.enum (vs.map fun v => expandFields (some item.ident) v.ident v.fields))
  | .struct fields => .ok (.struct (expandFields none item.ident fields))

/-- A value of a derived type: its constructor (struct or variant name) and its field values in declaration order. -/
structure Node (V : Type) where
  ctor : Text
  fields : List V

section EvalParse
variable {τ V : Type} (P : τ → Parser V)

/-- Meaning of one initialiser; `P` gives the `Parse` implementation of each type. -/
def evalInit (i : FieldInit τ) : Parser V := fun s =>
  (P i.ty s).mapErr fun cause => chainError cause i.enumStr i.ctorStr i.fieldStr

/-- Meaning of the initialisers: evaluated left to right, `?` leaves at the first error. -/
def evalInits : List (FieldInit τ) → Parser (List V)
  | [], s => .ok [] s
  | i :: is, s => (evalInit P i s).bind fun v s1 => (evalInits is s1).map fun vs => v :: vs

/-- Meaning of `let ast_node = Ctor { .. }; Ok(ast_node)`. -/
def evalCtor (c : CtorCode τ) : Parser (Node V) := fun s => (evalInits P c.inits s).map fun vs => ⟨c.ctor, vs⟩

/-- Meaning of the generated code of an enum from some variant on (parse.rs:104-112, 125-132); `error` is the local variable. -/
def evalVariants : List (CtorCode τ) → Option Err → Parser (Node V)
  | [], error, s => .err (error.getD (s.error "parsing an empty choice (enum) always fails".toList))
  | c :: cs, error, s =>
    match tryParseVariant s error (evalCtor P c) with
    | .ok v s' => .ok v s'
    | .err err => evalVariants cs (some err) s
    | .panic => .panic
    | .oof => .oof

/-- Meaning of a generated `fn parse`. -/
def evalParse : ParseCode τ → Parser (Node V)
  | .struct c => evalCtor P c
  | .enum cs => evalVariants P cs none

end EvalParse

/-! ### `where` clause -/

/-- util.rs:80-89 `field_type`: the type unless the field is marked `#[parsel(recursive)]`. -/
def fieldType {τ : Type} (f : FieldDef τ) : Except Text (Option τ) :=
  match f.attr with
  | .error e => .error e
  | .ok recursive => .ok (if recursive then none else some f.ty)

/-- util.rs:19-58 `.filter_map(|f| field_type(f).transpose()).collect::<Result<_>>()?`: the listed types in order, or the first
error. -/
def collectTypes {τ : Type} : List (FieldDef τ) → Except Text (List τ)
  | [] => .ok []
  | f :: fs =>
    match fieldType f with
    | .error e => .error e
    | .ok none => collectTypes fs
    | .ok (some t) =>
      match collectTypes fs with
      | .error e => .error e
      | .ok ts => .ok (t :: ts)

/-- A predicate of the resulting `where` clause: one of the user's, or `#ty: #bounds` (util.rs:67-73). -/
inductive Pred (τ ρ : Type) where
  | user (p : ρ)
  | bound (ty : τ)
  deriving DecidableEq

/-- A `HashSet` collected from a list, as the list of its elements without repetition (first occurrences). -/
def dedup {τ : Type} [DecidableEq τ] : List τ → List τ
  | [] => []
  | t :: ts => t :: (dedup ts).filter (fun u => decide (u ≠ t))

/-- util.rs:14-76 `add_bounds`; `order` is the unspecified iteration order of the `HashSet`. -/
def addBounds {τ ρ : Type} [DecidableEq τ] (order : List τ → List τ) (item : DeriveInput τ ρ) :
    Except Text (List (Pred τ ρ)) :=
  let types : Except Text (List τ) :=
    match item.data with
    | .union => .error "unions are not supported".toList
    | .struct .unit => .ok []
    | .struct (.named fs) => collectTypes (fs.map Prod.snd)
    | .struct (.unnamed fs) => collectTypes fs
    | .enum vs => collectTypes (vs.flatMap fun v => v.fields.defs)
  match types with
  | .error e => .error e
  | .ok ts => .ok (item.preds.map Pred.user ++ (order (dedup ts)).map Pred.bound)

/-- A generated impl: body and `where` predicates. -/
structure Impl (C τ ρ : Type) where
  body : C
  preds : List (Pred τ ρ)

/-- parse.rs:13-37 `expand` (after parsing the item). -/
def expandParse {τ ρ : Type} [DecidableEq τ] (order : List τ → List τ) (item : DeriveInput τ ρ) :
    Except Text (Impl (ParseCode τ) τ ρ) :=
  match expandParseBody item with
  | .error e => .error e
  | .ok body =>
    match addBounds order item with
    | .error e => .error e
    | .ok preds => .ok ⟨body, preds⟩

/-! ### `#[derive(ToTokens)]` -/

/-- Generated field accesses `self.name` / `self.0` (to_tokens.rs:49-51, 63-65). -/
inductive Access where
  | name (n : Text)
  | index (i : Nat)

/-- A generated match arm (to_tokens.rs:116-120): pattern bindings in declaration order, then one
`ToTokens::to_tokens(var, &mut *tokens);` per variable of `stmts`. -/
structure Arm where
  variant : Text
  binds : List Text
  stmts : List Text

/-- Generated body of `fn to_tokens(&self, tokens: &mut TokenStream)`. -/
inductive PrintCode where
  | struct (accesses : List Access)
  | enum (arms : List Arm)

/-- EXTERNAL (rustc) the name an identifier stands for: a raw identifier `r#x` and the plain identifier `x` are the same name. -/
def identName : Text → Text
  | 'r' :: '#' :: x => x
  | x => x

/-- to_tokens.rs:106 `format_ident!("parsel_field_{}_{}", variant_name, i)`. EXTERNAL (quote)
`format_ident!` drops a leading `r#` of an identifier argument. -/
def tupleVar (variant : Text) (i : Nat) : Text :=
  "parsel_field_".toList ++ identName variant ++ "_".toList ++ natText i

/-- to_tokens.rs:88-121 one arm of `expand_variants`. -/
def expandArm {τ : Type} (v : VariantDef τ) : Arm :=
  let fieldNames : List Text :=
    match v.fields with
    | .unit => []
    | .named fs => fs.map Prod.fst
    | .unnamed fs => (List.range fs.length).map (tupleVar v.ident)
  ⟨v.ident, fieldNames, fieldNames⟩

/-- to_tokens.rs:39-71 `expand_struct`. -/
def expandPrintStruct {τ : Type} : Fields τ → List Access
  | .named fs => fs.map fun f => .name f.1
  | .unnamed fs => (List.range fs.length).map .index
  | .unit => []

/-- to_tokens.rs:17-21, 73-123. -/
def expandPrintBody {τ ρ : Type} (item : DeriveInput τ ρ) : Except Text PrintCode :=
  match item.data with
  | .union => .error "unions are not supported".toList
  | .enum vs => .ok (.enum (vs.map expandArm))
  | .struct fields => .ok (.struct (expandPrintStruct fields))

/-- to_tokens.rs:13-36 `expand` (after parsing the item). -/
def expandToTokens {τ ρ : Type} [DecidableEq τ] (order : List τ → List τ) (item : DeriveInput τ ρ) :
    Except Text (Impl PrintCode τ ρ) :=
  match expandPrintBody item with
  | .error e => .error e
  | .ok body =>
    match addBounds order item with
    | .error e => .error e
    | .ok preds => .ok ⟨body, preds⟩

/-- What a variable of the generated code stands for: the output parameter `tokens`, or the `i`-th field of the matched
variant. -/
inductive Binding where
  | output
  | field (i : Nat)
  deriving DecidableEq

/-- EXTERNAL (rustc) scoping: the innermost binding of a name (`r#tokens` names the variable `tokens`). -/
def lookupVar (x : Text) : List (Text × Binding) → Option Binding
  | [] => none
  | (y, b) :: env => if identName x = identName y then some b else lookupVar x env

/-- Variables in scope in an arm: those of the pattern shadow the parameter `tokens`. -/
def armScope (binds : List Text) : List (Text × Binding) :=
  (binds.zipIdx.map fun p => (p.1, Binding.field p.2)) ++ [("tokens".toList, .output)]

/-- EXTERNAL (rustc) a statement `ToTokens::to_tokens(x, &mut *tokens)` type-checks if `x` is a field and `tokens` still is the
output parameter (a field reference can be neither a `&mut TokenStream` nor mutably reborrowed). Gives the printed field. -/
def resolveStmt (env : List (Text × Binding)) (x : Text) : Option Nat :=
  match lookupVar x env, lookupVar "tokens".toList env with
  | some (.field i), some .output => some i
  | _, _ => none

/-- The fields printed by an arm, in order; `none` if it does not compile. -/
def resolveArm (a : Arm) : Option (List Nat) := a.stmts.mapM (resolveStmt (armScope a.binds))

/-- Field accesses of a struct resolved to field positions; `none` if a field does not exist. -/
def resolveAccess {τ : Type} (fields : Fields τ) : Access → Option Nat
  | .name n =>
    match fields with
    | .named fs => fs.findIdx? (fun f => decide (identName f.1 = identName n))
    | _ => none
  | .index i =>
    match fields with
    | .unnamed fs => if i < fs.length then some i else none
    | _ => none

/-- EXTERNAL (rustc) the generated `fn to_tokens` compiled: for each constructor name the positions of the fields that get
printed.  `none` = compile error.  A `match self {}` without arms on a reference is not exhaustive (E0004). -/
def compilePrint {τ : Type} (data : Data τ) : PrintCode → Option (List (Text × List Nat))
  | .struct accesses =>
    match data with
    | .struct fields => (accesses.mapM (resolveAccess fields)).map fun is => [([], is)]
    | _ => none
  | .enum arms =>
    if arms.isEmpty then none
    else arms.mapM fun a => (resolveArm a).map fun is => (a.variant, is)

/-- First entry of a compiled `match` for a constructor. -/
def lookupArm (c : Text) : List (Text × List Nat) → Option (List Nat)
  | [] => none
  | (d, is) :: rest => if c = d then some is else lookupArm c rest

/-- Running compiled printing code on a value: the tokens of the selected fields appended in order (`pr` is the `to_tokens` of
the field types).  Structs have a single entry. -/
def runPrint {V X : Type} (pr : V → List X) (isStruct : Bool) (arms : List (Text × List Nat)) (n : Node V) : List X :=
  match (if isStruct then arms.head?.map Prod.snd else lookupArm n.ctor arms) with
  | some is => is.flatMap fun i => (n.fields[i]?.map pr).getD []
  | none => []

end Parsel
