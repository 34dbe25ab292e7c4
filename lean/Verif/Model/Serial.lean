import Verif.Model.Filter
import Verif.Model.Scale

/-!
# Serialisation

The buffer is a list of bytes. All multi-byte fields are copied with `memcpy` on a little-endian machine. The block
of a region is an array of 64-bit words, so its bytes are the little-endian bytes of the memory number.
-/

namespace Verif

/-- `memcpy` of an `n`-byte value to the buffer. -/
def leBytes : Nat → Nat → List UInt8
  | 0, _ => []
  | n + 1, v => UInt8.ofNat (v % 256) :: leBytes n (v / 256)

/-- The value of bytes copied from the buffer. -/
def leVal : List UInt8 → Nat
  | [] => 0
  | b :: bs => b.toNat + 256 * leVal bs

/-- IEEE single precision representation of the default load factor 0.95f. -/
def lfBits95 : Nat := 0x3F733333

/-- `SerializeMetadata`, diva.hpp:1217-1263. The random seed is not part of the model of a filter; it is an extra
argument, as is the load factor as raw bits. `load_factor_alt_` is always the default. -/
def serializeMetadata (intOpt : Bool) (s seed lf : Nat) : List UInt8 :=
  UInt8.ofNat (b2n intOpt) :: (leBytes 4 1024 ++ leBytes 4 10 ++ leBytes 4 15 ++ leBytes 4 15 ++ leBytes 4 500 ++
    leBytes 4 55 ++ leBytes 4 lf ++ leBytes 4 lfBits95 ++ leBytes 4 s ++ leBytes 4 seed ++ leBytes 4 8 ++ leBytes 4 20)

/-- `((len + 7) / 8) * 8`, diva.hpp:1180. -/
def roundKeyLen (len : Nat) : Nat := (len + 7) / 8 * 8

/-- `SerializeInfixStore`, diva.hpp:1266-1272. -/
def serializeStore (c : Cfg) (st : Store) : List UInt8 :=
  leBytes 4 st.status ++ leBytes (ptrWordCount (c.size st.sizeGrade) c.infixSize * 8) st.mem

/-- Body of the loop of `Serialize`, diva.hpp:1177-1186 and 1199-1208. -/
def serializeEntry (c : Cfg) (e : Key × Store) : List UInt8 :=
  leBytes 4 e.1.length ++ (e.1 ++ List.replicate (roundKeyLen e.1.length - e.1.length) 0) ++ serializeStore c e.2

/-- `Serialize`, diva.hpp:1162-1214: the bytes written to `out`. (The offset is a `uint32_t`; the model is meant
for filters of less than 4 GiB.) -/
def serialize (intOpt : Bool) (seed lf : Nat) (f : Filter) : List UInt8 :=
  serializeMetadata intOpt f.cfg.infixSize seed lf ++ f.tree.flatMap (serializeEntry f.cfg) ++ leBytes 4 (2 ^ 32 - 1)

/-- One round of the loop of `Size`: diva.hpp:1119-1123 for the integer variant, 1138-1150 for the generic one. (The
null test of line 1146 never fails: every store in the tree owns a block.) -/
def sizeEntry (intOpt : Bool) (c : Cfg) (e : Key × Store) : Nat :=
  let words := ptrWordCount (c.size e.2.sizeGrade) c.infixSize
  if intOpt then 4 + e.1.length + (4 + words * 8) else 4 + roundKeyLen e.1.length + 4 + words * 8

/-- `Size`, diva.hpp:1098-1159, in `uint32_t` arithmetic. -/
def sizeOf (intOpt : Bool) (f : Filter) : Nat :=
  (f.tree.foldl (fun res e => res + sizeEntry intOpt f.cfg e) (1 + 12 * 4) + 4) % 2 ^ 32

/-- `memcpy` of an `n`-byte value from the buffer; reading past its end is undefined. -/
def readLe (n : Nat) (buf : List UInt8) : Res (Nat × List UInt8) :=
  if buf.length < n then .ub else .ok (leVal (buf.take n), buf.drop n)

/-- `memcpy` of a field followed by an assertion on its value. A failing assertion ends the program. -/
def expectLe (v : Nat) (buf : List UInt8) : Res (List UInt8) :=
  (readLe 4 buf).bind fun (x, rest) => if x = v then .ok rest else .ub

/-- `DeserializeMetadata`, diva.hpp:1359-1420: the infix size, the random seed and the rest of the buffer. -/
def deserializeMetadata (intOpt : Bool) (buf : List UInt8) : Res (Nat × Nat × List UInt8) :=
  (readLe 1 buf).bind fun (v, buf) =>
  if (v != 0) != intOpt then .ub else
  (expectLe 1024 buf).bind fun buf => (expectLe 10 buf).bind fun buf => (expectLe 15 buf).bind fun buf =>
  (expectLe 15 buf).bind fun buf => (expectLe 500 buf).bind fun buf => (expectLe 55 buf).bind fun buf =>
  (expectLe lfBits95 buf).bind fun buf => (expectLe lfBits95 buf).bind fun buf =>
  (readLe 4 buf).bind fun (s, buf) => (readLe 4 buf).bind fun (seed, buf) =>
  (expectLe 8 buf).bind fun buf => (expectLe 20 buf).bind fun buf => .ok (s, seed, buf)

/-- `DeserializeInfixStore`, diva.hpp:1423-1431. The block stays inside the buffer: `store.ptr` points to it. -/
def deserializeStore (c : Cfg) (buf : List UInt8) : Res (Store × List UInt8) :=
  (readLe 4 buf).bind fun (status, buf) =>
  let st : Store := { status := status, mem := 0 }
  (readLe (ptrWordCount (c.size st.sizeGrade) c.infixSize * 8) buf).bind fun (mem, buf) =>
  .ok ({ st with mem := mem }, buf)

/-- Loop of the deserialising constructor, diva.hpp:1294-1316. The key is copied to an array of 20000 bytes. -/
def deserLoop (c : Cfg) : Nat → Tree → List UInt8 → Res Tree
  | 0, _, _ => .hang
  | fuel + 1, t, buf =>
    (readLe 4 buf).bind fun (len, buf) =>
    if len = 2 ^ 32 - 1 then .ok t
    else if len > 20000 ∨ buf.length < roundKeyLen len then .ub
    else (deserializeStore c (buf.drop (roundKeyLen len))).bind fun (st, rest) =>
      deserLoop c fuel (treePut t (buf.take len) st) rest

/-- The deserialising constructor, diva.hpp:1275-1317. `SetupScaleFactors` runs with the default load factors. Each
round of the loop consumes at least four bytes. -/
def deserialize (intOpt : Bool) (buf : List UInt8) : Res Filter :=
  (deserializeMetadata intOpt buf).bind fun (s, _, rest) =>
  (deserLoop (cfg95 s) (rest.length + 1) [] rest).bind fun t => .ok ⟨cfg95 s, t⟩

end Verif
