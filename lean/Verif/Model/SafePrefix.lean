import Verif.Model.State
/-!
# The portable prefix codec (`prefix.go`)

Slices are lists here: the codec touches nothing but its arguments.
-/
namespace Radix

/-- prefix.go:12-21: one word, big endian, the last one padded with zero bits (`bs`: at most 8 bytes). -/
def packWord (bs : List UInt8) : Word :=
  UInt64.ofNat (bs.foldl (fun a b => a * 256 + b.toNat) 0 * 256 ^ (8 - bs.length))

/-- prefix.go:10-24: fills `n` slots; `prefix[k]` past the end is an index panic. -/
def packWords : Nat → List UInt8 → Res (List Word)
  | 0, _ => .ok []
  | n + 1, bs =>
    if bs = [] then .error .index
    else do
      let ws ← packWords n (bs.drop 8)
      return packWord (bs.take 8) :: ws

/-- prefix.go:3-25 `storePrefixSafe` into a slice of `n` slots: the new contents of the slice.  (The Go loop runs
over all of `dst`, so that `prefix[k]` is out of range if `dst` is longer than needed.) -/
def storePrefixSafe (n : Nat) (pfx : List UInt8) : Res (List Word) :=
  if pfx.length ≥ 255 then
    if n = 0 then .error .index
    else do
      let ws ← packWords (n - 1) pfx
      return UInt64.ofNat pfx.length :: ws
  else packWords n pfx

/-- prefix.go:53-56: the 8 bytes of a word, most significant first. -/
def unpackWord (w : Word) : List UInt8 := (List.range 8).map fun i => UInt8.ofNat (w.toNat / 256 ^ (7 - i))

/-- prefix.go:28-60 `loadPrefixSafe` (the result replaces the contents of `dst`): bytes and slots used. -/
def loadPrefixSafe (src : List Word) (length : Nat) : Res (List UInt8 × Nat) :=
  if length = 255 then
    match src with
    | [] => .error .index
    | w :: rest =>
      let length := w.toNat
      let slots := (length + 7) / 8
      if slots ≤ rest.length then .ok (((rest.take slots).flatMap unpackWord).take length, slots + 1)
      else .error .index
  else
    let slots := (length + 7) / 8
    if slots ≤ src.length then .ok (((src.take slots).flatMap unpackWord).take length, slots)
    else .error .index

end Radix
