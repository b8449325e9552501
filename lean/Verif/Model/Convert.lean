import Verif.Model.Literal

/-! Conversions between parsel's literal nodes and the literal types of `syn`. -/

namespace Parsel

variable [Ext]

/-- ast.rs:2624-2628 `From<LitInt> for syn::LitInt`: the token (2536-2541) is read by `syn::LitInt::from(Literal)` (EXTERNAL: `value::parse_lit_int`,
panics - `none` - if that is not an integer).  A `syn::LitInt` is its decimal digits and location. -/
def litIntToSyn (v : Int) (sp : Span) : Option (Text × Span) := (readIntDigits (intLiteral v)).map fun d => (d, sp)

/-- ast.rs:2640-2644 `From<LitUint> for syn::LitInt`. -/
def litUintToSyn (v : Nat) (sp : Span) : Option (Text × Span) := (readIntDigits (natText v)).map fun d => (d, sp)

/-- ast.rs:2656-2660 `From<LitFloat> for syn::LitFloat`; making the token (2552-2557) panics if the number is not finite. -/
def litFloatToSyn (x : Ext.F) (sp : Span) : Option (Text × Span) := (floatLiteral x).bind fun r => (readFloatDigits r).map fun d => (d, sp)

/-- ast.rs:3151-3164 `From<Lit> for syn::Lit`, with the conversions of the single types (2596, 2608, 2624-2660, 2690, 2702, 2781).
EXTERNAL `syn::LitBool::new` keeps its value; `syn::LitChar::new`, `LitStr::new` and `LitByteStr::new` make the token `Literal::character`, `string`,
`byte_string`, from which `value()` is read (as `Lit::new` reads it).  What `syn::LitByte::new` makes of a byte differs between versions of `syn`:
parameter `byteNew` (`none`: `value()` panics). -/
def litToSyn (byteNew : Byte → Option Byte) (l : LitVal) (sp : Span) : Option (SynTok × Span) :=
  match l with
  | .bool b => some (.bool b, sp)
  | .byte b => (byteNew b).map fun b => (.lit (.byte b), sp)
  | .int v => (litIntToSyn v sp).map fun r => (.lit (.int r.1), r.2)
  | .uint v => (litUintToSyn v sp).map fun r => (.lit (.int r.1), r.2)
  | .float x => (litFloatToSyn x sp).map fun r => (.lit (.float r.1), r.2)
  | .char c => (readLit (charLiteral c)).map fun t => (.lit t, sp)
  | .str t => (readLit (stringLiteral t)).map fun t => (.lit t, sp)
  | .byteStr t => (readLit (byteStringLiteral t)).map fun t => (.lit t, sp)

end Parsel
