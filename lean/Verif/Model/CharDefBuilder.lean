import Verif.Model.Text
import Verif.Model.CharDef
/-! Model of the compiler of character definitions, `lindera-core/src/character_definition.rs` lines 11-30 and 101-245, from the decoded text of `char.def`. -/
namespace Verif.Model

/-- `ucs2_to_unicode`, `character_definition.rs` lines 11-22. `UTF_16LE.decode` of `encoding_rs` on the two bytes of the code unit: it removes a byte order
mark of either endianness (the result is empty, which is the error), replaces a lone surrogate by U+FFFD, and is the identity otherwise. -/
def ucs2ToUnicode (u : UInt16) : R Nat :=
  if u = 0xFEFF ∨ u = 0xFFFE then .error (.err .parse)
  else if 0xD800 ≤ u ∧ u ≤ 0xDFFF then .ok 0xFFFD
  else .ok u.toNat

/-- `parse_hex_codepoint`, `character_definition.rs` lines 24-30. -/
def parseHexCodepoint (s : Str) : R Nat :=
  match parseHexU16 (trim0x s) with
  | some u => ucs2ToUnicode u
  | none => .error (.err .parse)

/-- `CharacterDefinitionsBuilder`, `character_definition.rs` lines 102-107. The hash map `category_index` is the list of its entries in order of insertion. -/
structure CharDefBuilder where
  definitions : List CategoryData
  index : List (Str × Nat)
  ranges : List (Nat × Nat × List Nat)
  deriving DecidableEq, Repr

/-- `CharacterDefinitionsBuilder::default()`, `character_definition.rs` line 102. -/
def CharDefBuilder.empty : CharDefBuilder := ⟨[], [], []⟩

/-- `CharacterDefinitionsBuilder::category_id`, `character_definition.rs` lines 110-116. -/
def CharDefBuilder.categoryId (b : CharDefBuilder) (name : Str) : CharDefBuilder × Nat :=
  match b.index.lookup name with
  | some i => (b, i)
  | none => ({ b with index := b.index ++ [(name, b.index.length)] }, b.index.length)

/-- `if !buffer.contains(cat) { buffer.push(*cat) }`, `character_definition.rs` lines 123-125. -/
def pushNew (buf : List Nat) (cat : Nat) : List Nat := if buf.contains cat then buf else buf ++ [cat]

/-- One range of the loop, `character_definition.rs` lines 120-128. -/
def rangeStep (c : Nat) (buf : List Nat) (r : Nat × Nat × List Nat) : List Nat :=
  if r.1 ≤ c ∧ r.2.1 ≥ c then r.2.2.foldl pushNew buf else buf

/-- `DEFAULT_CATEGORY_NAME`, `character_definition.rs` line 9. -/
def defaultName : Str := ['D', 'E', 'F', 'A', 'U', 'L', 'T']

/-- `CharacterDefinitionsBuilder::lookup_categories`, `character_definition.rs` lines 118-134. -/
def CharDefBuilder.lookupCategories (b : CharDefBuilder) (c : Nat) : List Nat :=
  let buf := b.ranges.foldl (rangeStep c) []
  if buf = [] then
    match b.index.lookup defaultName with
    | some d => [d]
    | none => []
  else buf

/-- `LookupTable::from_fn`, `character_definition.rs` lines 56-68. -/
def LookupTable.fromFn (boundaries : List Nat) (f : Nat → List Nat) : LookupTable :=
  let bs := sortNat (if boundaries.contains 0 then boundaries else boundaries ++ [0])
  ⟨bs, bs.map f⟩

/-- `CharacterDefinitionsBuilder::build_lookup_table`, `character_definition.rs` lines 136-144. Bounds are at most 0xFFFF, so `high + 1` does not overflow. -/
def CharDefBuilder.buildLookupTable (b : CharDefBuilder) : LookupTable :=
  LookupTable.fromFn (sortedSet (b.ranges.flatMap fun r => [r.1, r.2.1 + 1])) b.lookupCategories

/-- The bounds of a range line, `character_definition.rs` lines 169-188. -/
def parseBounds (s : Str) : R (Nat × Nat) :=
  match splitDots s with
  | [a] => do
    let lo ← parseHexCodepoint a
    return (lo, lo)
  | [a, b] => do
    let lo ← parseHexCodepoint a
    let hi ← parseHexCodepoint b
    return (lo, hi)
  | _ => .error (.err .content)

/-- The ids of the categories of a range line, `character_definition.rs` lines 189-192. -/
def CharDefBuilder.categoryIds (b : CharDefBuilder) : List Str → CharDefBuilder × List Nat
  | [] => (b, [])
  | name :: names =>
    let r := b.categoryId name
    let rs := r.1.categoryIds names
    (rs.1, r.2 :: rs.2)

/-- `CharacterDefinitionsBuilder::parse_range`, `character_definition.rs` lines 167-197. -/
def CharDefBuilder.parseRange (b : CharDefBuilder) (line : Str) : R CharDefBuilder := do
  let fields := splitWhitespace line
  let first ← orPanic fields[0]?
  let bounds ← parseBounds first
  let r := b.categoryIds fields.tail
  return { r.1 with ranges := r.1.ranges ++ [(bounds.1, bounds.2, r.2)] }

/-- `.parse::<u32>().map_err(Parse)?`, `character_definition.rs` lines 209-219. -/
def parseU32R (s : Str) : R UInt32 :=
  match parseU32 s with
  | some n => .ok n
  | none => .error (.err .parse)

/-- `CharacterDefinitionsBuilder::parse_category`, `character_definition.rs` lines 199-229. -/
def CharDefBuilder.parseCategory (b : CharDefBuilder) (line : Str) : R CharDefBuilder :=
  match splitAsciiWhitespace line with
  | [name, invoke, group, length] => do
    let i ← parseU32R invoke
    let g ← parseU32R group
    let l ← parseU32R length
    let r := b.categoryId name
    return { r.1 with definitions := r.1.definitions ++ [⟨i == 1, g == 1, l⟩] }
  | _ => .error (.err .content)

/-- One line, `character_definition.rs` lines 148-162. `split` always gives a first piece. -/
def CharDefBuilder.parseLine (b : CharDefBuilder) (line : Str) : R CharDefBuilder :=
  let s := trim ((splitAll (· = '#') line).headD [])
  if s = [] then .ok b
  else if ['0', 'x'].isPrefixOf s then b.parseRange s
  else b.parseCategory s

/-- `CharacterDefinitionsBuilder::parse`, `character_definition.rs` lines 146-165. -/
def CharDefBuilder.parse (b : CharDefBuilder) (text : Str) : R CharDefBuilder := (lines text).foldlM CharDefBuilder.parseLine b

/-- The loop that fills `category_names`, `character_definition.rs` lines 232-237, over the entries of the hash map in the given order. -/
def fillNames (n : Nat) (order : List (Str × Nat)) : R (List Str) :=
  order.foldlM (init := List.replicate n []) fun names e =>
    if e.2 < names.length then .ok (names.set e.2 e.1) else .error .panic

/-- `CharacterDefinitionsBuilder::build`, `character_definition.rs` lines 231-244. `order`: the entries of the hash map in the order of its iterator. -/
def CharDefBuilder.build (b : CharDefBuilder) (order : List (Str × Nat)) : R CharDefs := do
  let names ← fillNames b.index.length order
  return ⟨b.definitions, names, b.buildLookupTable⟩

end Verif.Model
