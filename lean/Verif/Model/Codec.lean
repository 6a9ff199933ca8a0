import Verif.Model.Search
/-!
# Models of the two file formats

`bincode` 1.3 (`serialize_into` / `deserialize_from`, interface.rs:156, 168) and `serde_json` 1
(`to_writer` / `from_reader`, interface.rs:155, 167) for the types that `run_serialized` reads and
writes: `SpacialGraph = Vec<Vec<usize>>`, `PartialOrderGraph = Vec<Vec<(usize, Vec<usize>)>>` and
`Vec<Path>`. Both are external crates, modelled by their documented formats. Decoders return the value
and the rest of the input; `none` is an error of the crate.
-/

namespace Verif

abbrev Bytes := List UInt8

/-! ## bincode: fixed-size little-endian integers, lengths as `u64`, no separators -/

namespace Bincode

/-- The `n` lowest base-256 digits, lowest first. -/
def leBytes : Nat → Nat → Bytes
  | 0, _ => []
  | n + 1, x => UInt8.ofNat (x % 256) :: leBytes n (x / 256)

def ofLeBytes : Bytes → Nat
  | [] => 0
  | b :: bs => b.toNat + 256 * ofLeBytes bs

/-- `usize` is written as `u64`. -/
def encUsize (x : Nat) : Bytes := leBytes 8 x

def decUsize (bs : Bytes) : Option (Nat × Bytes) :=
  if bs.length < 8 then none else some (ofLeBytes (bs.take 8), bs.drop 8)

/-- `Vec<T>`: the length, then the elements. -/
def encVec {α : Type} (enc : α → Bytes) (l : List α) : Bytes := encUsize l.length ++ l.flatMap enc

def decMany {α : Type} (dec : Bytes → Option (α × Bytes)) : Nat → Bytes → Option (List α × Bytes)
  | 0, bs => some ([], bs)
  | n + 1, bs =>
    match dec bs with
    | none => none
    | some (x, bs) =>
      match decMany dec n bs with
      | none => none
      | some (xs, bs) => some (x :: xs, bs)

def decVec {α : Type} (dec : Bytes → Option (α × Bytes)) (bs : Bytes) : Option (List α × Bytes) :=
  match decUsize bs with
  | none => none
  | some (n, bs) => decMany dec n bs

/-- Tuples and structs: the components one after the other. -/
def encPair {α β : Type} (encA : α → Bytes) (encB : β → Bytes) (p : α × β) : Bytes :=
  encA p.1 ++ encB p.2

def decPair {α β : Type} (decA : Bytes → Option (α × Bytes)) (decB : Bytes → Option (β × Bytes))
    (bs : Bytes) : Option ((α × β) × Bytes) :=
  match decA bs with
  | none => none
  | some (a, bs) =>
    match decB bs with
    | none => none
    | some (b, bs) => some ((a, b), bs)

def encGraph : List (List Nat) → Bytes := encVec (encVec encUsize)
def decGraph : Bytes → Option (List (List Nat) × Bytes) := decVec (decVec decUsize)

def encOrder : OrderGraph → Bytes := encVec (encVec (encPair encUsize (encVec encUsize)))
def decOrder : Bytes → Option (OrderGraph × Bytes) := decVec (decVec (decPair decUsize (decVec decUsize)))

/-- `Path`, interface.rs:16-29: the fields in the order of the declaration. -/
def encPath (p : Path) : Bytes := encUsize p.time ++ encUsize p.space ++ encGraph p.steps

def decPath (bs : Bytes) : Option (Path × Bytes) :=
  match decPair decUsize (decPair decUsize decGraph) bs with
  | none => none
  | some ((time, space, steps), bs) => some (⟨time, space, steps⟩, bs)

def encPaths : List Path → Bytes := encVec encPath
def decPaths : Bytes → Option (List Path × Bytes) := decVec decPath

/-- `deserialize_from` reads one value and does not look at what follows. -/
def decode {α : Type} (dec : Bytes → Option (α × Bytes)) (bs : Bytes) : Option α :=
  (dec bs).map (·.1)

end Bincode

/-! ## serde_json -/

namespace Json

/-- White space between tokens. -/
def isWs (b : UInt8) : Bool := b == 32 || b == 10 || b == 9 || b == 13

def isDigit (b : UInt8) : Bool := 48 ≤ b && b ≤ 57

def skipWs : Bytes → Bytes
  | [] => []
  | b :: bs => if isWs b then skipWs bs else b :: bs

/-- The digits of `x`, highest first. A `u64` has at most 20 of them. -/
def digits : Nat → Nat → Bytes
  | 0, _ => []
  | n + 1, x =>
    if x < 10 then [UInt8.ofNat (48 + x)]
    else digits n (x / 10) ++ [UInt8.ofNat (48 + x % 10)]

def encUsize (x : Nat) : Bytes := digits 20 x

def value (ds : Bytes) : Nat := ds.foldl (fun a d => 10 * a + (d.toNat - 48)) 0

/-- An unsigned integer: no sign, no leading zeros, no fraction or exponent, below `2 ^ 64`. -/
def decUsize (bs : Bytes) : Option (Nat × Bytes) :=
  let bs := skipWs bs
  let ds := bs.takeWhile isDigit
  let rest := bs.dropWhile isDigit
  if ds.isEmpty || (ds.length != 1 && ds.head? == some 48) then none
  else if rest.head? == some 46 || rest.head? == some 101 || rest.head? == some 69 then none
  else if value ds < 2 ^ 64 then some (value ds, rest)
  else none

/-- Expect the byte `c` after white space. -/
def expect (c : UInt8) (bs : Bytes) : Option Bytes :=
  match skipWs bs with
  | [] => none
  | b :: bs => if b = c then some bs else none

def joinComma : List Bytes → Bytes
  | [] => []
  | [x] => x
  | x :: xs => x ++ 44 :: joinComma xs

/-- An array. -/
def encVec {α : Type} (enc : α → Bytes) (l : List α) : Bytes := 91 :: joinComma (l.map enc) ++ [93]

/-- The elements after the first one, up to the closing bracket. -/
def decMore {α : Type} (dec : Bytes → Option (α × Bytes)) : Nat → Bytes → Option (List α × Bytes)
  | 0, _ => none
  | fuel + 1, bs =>
    match skipWs bs with
    | [] => none
    | b :: bs =>
      if b = 93 then some ([], bs)
      else if b = 44 then
        match dec bs with
        | none => none
        | some (x, bs) =>
          match decMore dec fuel bs with
          | none => none
          | some (xs, bs) => some (x :: xs, bs)
      else none

def decVec {α : Type} (dec : Bytes → Option (α × Bytes)) (bs : Bytes) : Option (List α × Bytes) :=
  match expect 91 bs with
  | none => none
  | some bs =>
    match expect 93 bs with
    | some bs => some ([], bs)
    | none =>
      match dec bs with
      | none => none
      | some (x, bs) =>
        match decMore dec (bs.length + 1) bs with
        | none => none
        | some (xs, bs) => some (x :: xs, bs)

/-- A pair is an array with two elements. -/
def encPair {α β : Type} (encA : α → Bytes) (encB : β → Bytes) (p : α × β) : Bytes :=
  91 :: encA p.1 ++ 44 :: encB p.2 ++ [93]

def decPair {α β : Type} (decA : Bytes → Option (α × Bytes)) (decB : Bytes → Option (β × Bytes))
    (bs : Bytes) : Option ((α × β) × Bytes) := do
  let bs ← expect 91 bs
  let (a, bs) ← decA bs
  let bs ← expect 44 bs
  let (b, bs) ← decB bs
  let bs ← expect 93 bs
  pure ((a, b), bs)

def encGraph : List (List Nat) → Bytes := encVec (encVec encUsize)
def decGraph : Bytes → Option (List (List Nat) × Bytes) := decVec (decVec decUsize)

def encOrder : OrderGraph → Bytes := encVec (encVec (encPair encUsize (encVec encUsize)))
def decOrder : Bytes → Option (OrderGraph × Bytes) := decVec (decVec (decPair decUsize (decVec decUsize)))

/-- `"time":` etc. -/
def keyTime : Bytes := [34, 116, 105, 109, 101, 34, 58]
def keySpace : Bytes := [34, 115, 112, 97, 99, 101, 34, 58]
def keySteps : Bytes := [34, 115, 116, 101, 112, 115, 34, 58]

/-- `Path` as an object, interface.rs:16-29: `{"time":..,"space":..,"steps":..}`. -/
def encPath (p : Path) : Bytes :=
  123 :: keyTime ++ encUsize p.time ++ 44 :: keySpace ++ encUsize p.space ++ 44 :: keySteps ++
    encGraph p.steps ++ [125]

/-- Expect exactly these bytes. Simplification: white space inside a key, between a key and its colon,
other orders of the keys and additional keys, which serde_json accepts, are refused. -/
def expectAll (key bs : Bytes) : Option Bytes :=
  if (skipWs bs).take key.length = key then some ((skipWs bs).drop key.length) else none

def decPath (bs : Bytes) : Option (Path × Bytes) := do
  let bs ← expect 123 bs
  let bs ← expectAll keyTime bs
  let (time, bs) ← decUsize bs
  let bs ← expect 44 bs
  let bs ← expectAll keySpace bs
  let (space, bs) ← decUsize bs
  let bs ← expect 44 bs
  let bs ← expectAll keySteps bs
  let (steps, bs) ← decGraph bs
  let bs ← expect 125 bs
  pure (⟨time, space, steps⟩, bs)

def encPaths : List Path → Bytes := encVec encPath
def decPaths : Bytes → Option (List Path × Bytes) := decVec decPath

/-- `from_reader`: only white space may follow the value. -/
def decode {α : Type} (dec : Bytes → Option (α × Bytes)) (bs : Bytes) : Option α :=
  match dec bs with
  | none => none
  | some (x, rest) => if (skipWs rest).isEmpty then some x else none

end Json
end Verif
