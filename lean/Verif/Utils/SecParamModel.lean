import Mathlib.Data.BitVec
import Mathlib.Data.Nat.Notation

/-! Compile time registry of security parameters: yacl/utils/compile_time_utils.h, yacl/secparam.h and
yacl/secparam.cc.  Property C141. -/

namespace Yacl.SecParam

/-! ### CRC-32 -/

/-- compile_time_utils.h L32-75 `crc32_table`. -/
def crcTable : List (BitVec 32) := [
    0x00000000, 0x77073096, 0xee0e612c, 0x990951ba, 0x076dc419, 0x706af48f, 0xe963a535, 0x9e6495a3,
    0x0edb8832, 0x79dcb8a4, 0xe0d5e91e, 0x97d2d988, 0x09b64c2b, 0x7eb17cbd, 0xe7b82d07, 0x90bf1d91,
    0x1db71064, 0x6ab020f2, 0xf3b97148, 0x84be41de, 0x1adad47d, 0x6ddde4eb, 0xf4d4b551, 0x83d385c7,
    0x136c9856, 0x646ba8c0, 0xfd62f97a, 0x8a65c9ec, 0x14015c4f, 0x63066cd9, 0xfa0f3d63, 0x8d080df5,
    0x3b6e20c8, 0x4c69105e, 0xd56041e4, 0xa2677172, 0x3c03e4d1, 0x4b04d447, 0xd20d85fd, 0xa50ab56b,
    0x35b5a8fa, 0x42b2986c, 0xdbbbc9d6, 0xacbcf940, 0x32d86ce3, 0x45df5c75, 0xdcd60dcf, 0xabd13d59,
    0x26d930ac, 0x51de003a, 0xc8d75180, 0xbfd06116, 0x21b4f4b5, 0x56b3c423, 0xcfba9599, 0xb8bda50f,
    0x2802b89e, 0x5f058808, 0xc60cd9b2, 0xb10be924, 0x2f6f7c87, 0x58684c11, 0xc1611dab, 0xb6662d3d,
    0x76dc4190, 0x01db7106, 0x98d220bc, 0xefd5102a, 0x71b18589, 0x06b6b51f, 0x9fbfe4a5, 0xe8b8d433,
    0x7807c9a2, 0x0f00f934, 0x9609a88e, 0xe10e9818, 0x7f6a0dbb, 0x086d3d2d, 0x91646c97, 0xe6635c01,
    0x6b6b51f4, 0x1c6c6162, 0x856530d8, 0xf262004e, 0x6c0695ed, 0x1b01a57b, 0x8208f4c1, 0xf50fc457,
    0x65b0d9c6, 0x12b7e950, 0x8bbeb8ea, 0xfcb9887c, 0x62dd1ddf, 0x15da2d49, 0x8cd37cf3, 0xfbd44c65,
    0x4db26158, 0x3ab551ce, 0xa3bc0074, 0xd4bb30e2, 0x4adfa541, 0x3dd895d7, 0xa4d1c46d, 0xd3d6f4fb,
    0x4369e96a, 0x346ed9fc, 0xad678846, 0xda60b8d0, 0x44042d73, 0x33031de5, 0xaa0a4c5f, 0xdd0d7cc9,
    0x5005713c, 0x270241aa, 0xbe0b1010, 0xc90c2086, 0x5768b525, 0x206f85b3, 0xb966d409, 0xce61e49f,
    0x5edef90e, 0x29d9c998, 0xb0d09822, 0xc7d7a8b4, 0x59b33d17, 0x2eb40d81, 0xb7bd5c3b, 0xc0ba6cad,
    0xedb88320, 0x9abfb3b6, 0x03b6e20c, 0x74b1d29a, 0xead54739, 0x9dd277af, 0x04db2615, 0x73dc1683,
    0xe3630b12, 0x94643b84, 0x0d6d6a3e, 0x7a6a5aa8, 0xe40ecf0b, 0x9309ff9d, 0x0a00ae27, 0x7d079eb1,
    0xf00f9344, 0x8708a3d2, 0x1e01f268, 0x6906c2fe, 0xf762575d, 0x806567cb, 0x196c3671, 0x6e6b06e7,
    0xfed41b76, 0x89d32be0, 0x10da7a5a, 0x67dd4acc, 0xf9b9df6f, 0x8ebeeff9, 0x17b7be43, 0x60b08ed5,
    0xd6d6a3e8, 0xa1d1937e, 0x38d8c2c4, 0x4fdff252, 0xd1bb67f1, 0xa6bc5767, 0x3fb506dd, 0x48b2364b,
    0xd80d2bda, 0xaf0a1b4c, 0x36034af6, 0x41047a60, 0xdf60efc3, 0xa867df55, 0x316e8eef, 0x4669be79,
    0xcb61b38c, 0xbc66831a, 0x256fd2a0, 0x5268e236, 0xcc0c7795, 0xbb0b4703, 0x220216b9, 0x5505262f,
    0xc5ba3bbe, 0xb2bd0b28, 0x2bb45a92, 0x5cb36a04, 0xc2d7ffa7, 0xb5d0cf31, 0x2cd99e8b, 0x5bdeae1d,
    0x9b64c2b0, 0xec63f226, 0x756aa39c, 0x026d930a, 0x9c0906a9, 0xeb0e363f, 0x72076785, 0x05005713,
    0x95bf4a82, 0xe2b87a14, 0x7bb12bae, 0x0cb61b38, 0x92d28e9b, 0xe5d5be0d, 0x7cdcefb7, 0x0bdbdf21,
    0x86d3d2d4, 0xf1d4e242, 0x68ddb3f8, 0x1fda836e, 0x81be16cd, 0xf6b9265b, 0x6fb077e1, 0x18b74777,
    0x88085ae6, 0xff0f6a70, 0x66063bca, 0x11010b5c, 0x8f659eff, 0xf862ae69, 0x616bffd3, 0x166ccf45,
    0xa00ae278, 0xd70dd2ee, 0x4e048354, 0x3903b3c2, 0xa7672661, 0xd06016f7, 0x4969474d, 0x3e6e77db,
    0xaed16a4a, 0xd9d65adc, 0x40df0b66, 0x37d83bf0, 0xa9bcae53, 0xdebb9ec5, 0x47b2cf7f, 0x30b5ffe9,
    0xbdbdf21c, 0xcabac28a, 0x53b39330, 0x24b4a3a6, 0xbad03605, 0xcdd70693, 0x54de5729, 0x23d967bf,
    0xb3667a2e, 0xc4614ab8, 0x5d681b02, 0x2a6f2b94, 0xb40bbe37, 0xc30c8ea1, 0x5a05df1b, 0x2d02ef8d]

/-- A `char` in an integer expression: sign extended where `char` is signed (x86), else not. -/
def promote (charSigned : Bool) (b : BitVec 8) : BitVec 32 := if charSigned then b.signExtend 32 else b.setWidth 32

/-- compile_time_utils.h L77-89 `crc32<idx>`, with `n = idx + 1`, so that `n = 0` is the recursion stopper. -/
def crcRec (charSigned : Bool) (str : List (BitVec 8)) : ℕ → BitVec 32
  | 0 => 0xFFFFFFFF#32
  | n + 1 =>
    (crcRec charSigned str n >>> 8) ^^^
      crcTable.getD ((crcRec charSigned str n ^^^ promote charSigned (str.getD n 0)) &&& 0x000000FF#32).toNat 0

/-- compile_time_utils.h L94 `CT_CRC32` of a string literal: `sizeof(x) - 2` is the length minus 1. -/
def ctCrc32 (charSigned : Bool) (str : List (BitVec 8)) : BitVec 32 := crcRec charSigned str str.length ^^^ 0xFFFFFFFF#32

/-! ### Compile time counter -/

/-- The overloads of `counter_crumb` declared so far: for a rank and an accumulator, the returned number. -/
abbrev Crumbs := List ((ℕ × ℕ) × ℕ)

/-- compile_time_utils.h L111-118: overload resolution takes the exact overload if there is one, else the template,
which returns the accumulator. -/
def readCrumb (cs : Crumbs) (rank acc : ℕ) : ℕ := (cs.lookup (rank, acc)).getD acc

/-- compile_time_utils.h L121-135 `COUNTER_READ`. -/
def counterRead (cs : Crumbs) : ℕ :=
  readCrumb cs 1 (readCrumb cs 2 (readCrumb cs 4 (readCrumb cs 8 (readCrumb cs 16 (readCrumb cs 32
    (readCrumb cs 64 (readCrumb cs 128 0)))))))

/-- compile_time_utils.h L138-143 `COUNTER_INC`; `none` when the function is defined a second time, which does not
compile. -/
def counterInc (cs : Crumbs) : Option Crumbs :=
  let n := counterRead cs
  let key := ((n + 1) &&& (2 ^ 64 - 1 - n), (n + 1) &&& n)
  if (cs.lookup key).isSome then none else some ((key, n + 1) :: cs)

/-! ### Parameters and modules -/

/-- secparam.h L71-78 `SecParam::C`. -/
inductive C | unknown | k112 | k128 | k192 | k256 | inf
deriving DecidableEq, Repr

/-- The order of the enumeration, by which `>` compares. -/
def C.ord : C → ℕ | .unknown => 0 | .k112 => 1 | .k128 => 2 | .k192 => 3 | .k256 => 4 | .inf => 5

/-- secparam.h L88-95 `SecParam::S`. -/
inductive S | unknown | k30 | k40 | k64 | inf
deriving DecidableEq, Repr

/-- The order of the enumeration. -/
def S.ord : S → ℕ | .unknown => 0 | .k30 => 1 | .k40 => 2 | .k64 => 3 | .inf => 4

/-- secparam.h L106-121 `MakeInt`. -/
def C.makeInt : C → ℕ | .k112 => 112 | .k128 => 128 | .k192 => 192 | .k256 => 256 | .inf => 2 ^ 32 - 1 | _ => 0

/-- secparam.h L123-136 `MakeInt`. -/
def S.makeInt : S → ℕ | .k30 => 30 | .k40 => 40 | .k64 => 64 | .inf => 2 ^ 32 - 1 | _ => 0

/-- One use of `YACL_MODULE_DECLARE`. -/
structure Decl where
  name : List (BitVec 8)
  c : C
  s : S
deriving DecidableEq

/-- secparam.h L211-217: the parameters of a module nobody declared. -/
def unknownModule : C × S := (.unknown, .unknown)

/-- What the compiler knows of one translation unit: specialisations of `YaclModule`, of `YaclRegistry`, and the
overloads of the counter. -/
structure TransUnit where
  modules : List (BitVec 32 × (C × S)) := []
  registry : List (ℕ × BitVec 32) := []
  crumbs : Crumbs := []

/-- secparam.h L300-313 `YACL_MODULE_DECLARE`; `none` where it does not compile (a second specialisation). -/
def declare (sg : Bool) (u : TransUnit) (d : Decl) : Option TransUnit :=
  let h := ctCrc32 sg d.name
  if (u.modules.lookup h).isSome then none
  else
    let n := counterRead u.crumbs
    if (u.registry.lookup n).isSome then none
    else
      match counterInc u.crumbs with
      | none => none
      | some cs => some { modules := (h, (d.c, d.s)) :: u.modules, registry := (n, h) :: u.registry, crumbs := cs }

/-- All declarations of a translation unit, in the order of its includes. -/
def compile (sg : Bool) (ds : List Decl) : Option TransUnit := ds.foldlM (declare sg) {}

/-- secparam.h L212-217, L302-307 `YaclModule<hash>`. -/
def moduleOf (u : TransUnit) (h : BitVec 32) : C × S := (u.modules.lookup h).getD unknownModule

/-- secparam.h L316-317 `YACL_MODULE_SECPARAM_C`, `YACL_MODULE_SECPARAM_S`. -/
def secparam (sg : Bool) (u : TransUnit) (name : List (BitVec 8)) : C × S := moduleOf u (ctCrc32 sg name)

/-- secparam.h L224-227, L310-312 `YaclRegistry<n>::hash`. -/
def registryOf (u : TransUnit) (n : ℕ) : BitVec 32 := (u.registry.lookup n).getD 0

/-- secparam.cc L18-19: the initial values of `glob_c` and `glob_s`. -/
def glob0 : C × S := (.inf, .inf)

/-- secparam.h L273-276 `iterator<N>`, without the printing. -/
def iterator (u : TransUnit) (g : C × S) (n : ℕ) : C × S :=
  let m := moduleOf u (registryOf u n)
  (if g.1.ord > m.1.ord then m.1 else g.1, if g.2.ord > m.2.ord then m.2 else g.2)

/-- secparam.h L252-256 `GetGlob<N>` with `N = COUNTER_READ(YaclModuleCtr)` (L324-327): the values returned are those
left in the static members. -/
def getGlob (u : TransUnit) (g : C × S) : C × S := (List.range (counterRead u.crumbs)).foldl (iterator u) g

/-- secparam.h L336-342 `YACL_ENFORCE_SECPARAM` in unit `u`: whether it passes, and the static members afterwards. -/
def enforce (u : TransUnit) (c : C) (s : S) (g : C × S) : Bool × (C × S) :=
  let g1 := getGlob u g
  if g1.1.ord ≥ c.ord then
    let g2 := getGlob u g1
    (decide (g2.2.ord ≥ s.ord), g2)
  else (false, g1)

/-- A run of the program: the units whose code asked for the global parameter, in order. -/
def run (us : List TransUnit) : C × S := us.foldl (fun g u => getGlob u g) glob0

/-- `GetGlob` where the linker has kept, of the functions `iterator<n>` of all units, that of unit `pick n`. -/
def getGlobFolded (pick : ℕ → TransUnit) (u : TransUnit) (g : C × S) : C × S :=
  (List.range (counterRead u.crumbs)).foldl (fun g n => iterator (pick n) g n) g

end Yacl.SecParam
