import Verif.Model.RefEngine
/-
How strings get from JavaScript to Rust and back: the glue wasm-bindgen (0.2.80 in Cargo.lock) generates for the exported
functions of src/lib.rs and src/js_interactable/*.rs that take `&str`, `String` or `Option<String>` or return strings
(src/lib.rs:60-66, 120-127, 139-141, 149, 249; src/js_interactable/category_handler.rs:157-159, 172-174,
src/js_interactable/tag_handler.rs:136-138, src/js_interactable/product_producer.rs:50-78, and `as_string` in
src/js_interactable/feature_filter.rs:39). The generated code is not in the repository; it is modelled as documented.
-/
namespace Idx

/-- A JavaScript string: UTF-16 code units, surrogates not necessarily in pairs. -/
abbrev JsString := List UInt16

/-- The first half of a pair. -/
def isHigh (u : UInt16) : Bool := 0xD800 ≤ u.toNat && u.toNat < 0xDC00

/-- The second half of a pair. -/
def isLow (u : UInt16) : Bool := 0xDC00 ≤ u.toNat && u.toNat < 0xE000

/-- U+FFFD, what encoders put in the place of half a pair. -/
def replacement : Char := Char.ofNat 0xFFFD

/-- The character of one code unit. -/
def unitChar (u : UInt16) : Char := if isHigh u || isLow u then replacement else Char.ofNat u.toNat

/-- The character of a pair. -/
def pairChar (u v : UInt16) : Char := Char.ofNat (0x10000 + (u.toNat - 0xD800) * 0x400 + (v.toNat - 0xDC00))

/-- The characters `TextEncoder` sees in a string (the conversion to `USVString` of Web IDL). -/
def scalars : JsString → Str
  | [] => []
  | [u] => [unitChar u]
  | u :: v :: rest => if isHigh u && isLow v then pairChar u v :: scalars rest else unitChar u :: scalars (v :: rest)

/-- The code units of a character. -/
def utf16Char (c : Char) : JsString :=
  if c.toNat < 0x10000 then [UInt16.ofNat c.toNat]
  else [UInt16.ofNat (0xD800 + (c.toNat - 0x10000) / 0x400), UInt16.ofNat (0xDC00 + (c.toNat - 0x10000) % 0x400)]

/-- The JavaScript string of a text. -/
def utf16 (s : Str) : JsString := s.flatMap utf16Char

/-- `TextEncoder.encodeInto` into a buffer with so much room: whole characters as long as they fit. -/
def encodeInto : Str → Nat → Bytes
  | [], _ => []
  | c :: rest, room =>
    if c.utf8Size ≤ room then String.utf8EncodeChar c ++ encodeInto rest (room - c.utf8Size) else []

/-- Memory as the glue uses it: a new block, and a block moved to another size. -/
structure Alloc where
  malloc : Nat → Bytes
  realloc : Bytes → Nat → Bytes

/-- What allocators guarantee; what is in the new bytes is unknown. -/
structure Alloc.Sound (a : Alloc) : Prop where
  malloc : ∀ n, (a.malloc n).length = n
  realloc : ∀ b n, (a.realloc b n).length = n
  keeps : ∀ b n, b.length ≤ n → (a.realloc b n).take b.length = b

/-- The loop of `passStringToWasm0`: units up to 0x7F are written as they are, up to the first other one. -/
def writeAscii : Bytes → Nat → JsString → Bytes × Nat
  | mem, offset, [] => (mem, offset)
  | mem, offset, u :: rest =>
    if 0x7F < u.toNat then (mem, offset) else writeAscii (mem.set offset (UInt8.ofNat u.toNat)) (offset + 1) rest

/-- `passStringToWasm0(arg, malloc, realloc)`: the bytes Rust gets. What is left after the loop is encoded into three bytes for
each unit left. -/
def passString (a : Alloc) (arg : JsString) : Bytes :=
  let written := writeAscii (a.malloc arg.length) 0 arg
  let offset := written.2
  if offset = arg.length then written.1.take offset
  else
    let rest := arg.drop offset
    let len := offset + rest.length * 3
    let mem := a.realloc written.1 len
    let bytes := encodeInto (scalars rest) (len - offset)
    (mem.take offset ++ bytes ++ mem.drop (offset + bytes.length)).take (offset + bytes.length)

/-- The `&str` or `String` Rust gets (its bytes are not checked; if they were no text this would be another one). -/
def received (a : Alloc) (arg : JsString) : Str := (fromUtf8 (passString a arg)).getD []

/-- `getStringFromWasm0`, `new TextDecoder('utf-8', { ignoreBOM: true, fatal: true })`: throws unless the bytes are UTF-8, and
keeps a byte order mark. -/
def shown (s : Str) : Option JsString := (fromUtf8 (utf8 s)).map utf16

/-! ## Calls as the page makes them -/

/-- A call with JavaScript strings; `null` and `undefined` for an order are `none`. All other calls have no strings in them. -/
inductive PageAsk where
  | search (input : JsString) (cats tags : Nat) (order : Option JsString) (filter : List (JsString × JsValue))
  | suggest (query : JsString)
  | numeric (p : Nat) (key : JsString)
  | text (p : Nat) (key : JsString)
  | other (ask : Ask)

/-- The call Rust gets. -/
def PageAsk.received (a : Alloc) : PageAsk → Ask
  | .search input cats tags order filter =>
    .search (Idx.received a input) cats tags (order.map (Idx.received a)) (filter.map fun e => (Idx.received a e.1, e.2))
  | .suggest query => .suggest (Idx.received a query)
  | .numeric p key => .numeric p (Idx.received a key)
  | .text p key => .text p (Idx.received a key)
  | .other ask => ask

/-- What the page sees of a call. -/
inductive PageAnswer where
  /-- a string whose bytes are not UTF-8 -/
  | thrown
  | str (s : JsString)
  | strs (l : List JsString)
  /-- an `ExportCategoryOption` and what its `get_name` says -/
  | item (e : ExportOption) (name : JsString)
  /-- a `TagSuggestionResult` and what its `get_input` says -/
  | suggestion (tag : Nat) (input : JsString)
  | other (x : JsAnswer)

/-- What the page sees of an answer. -/
def JsAnswer.shown : JsAnswer → PageAnswer
  | .str s => ((Idx.shown s).map .str).getD .thrown
  | .strs l => ((l.mapM Idx.shown).map .strs).getD .thrown
  | .item e => ((Idx.shown e.name).map (.item e)).getD .thrown
  | .suggestion tag input => ((Idx.shown input).map (.suggestion tag)).getD .thrown
  | x => .other x

/-- A call of the page. -/
def pageStep {W : Type} (a : Alloc) (step : W → Ask → W × JsAnswer) (w : W) (ask : PageAsk) : W × PageAnswer :=
  let r := step w (ask.received a)
  (r.1, r.2.shown)

end Idx
