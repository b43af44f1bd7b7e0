import Lean.Elab.Term
import Mathlib.Data.List.Basic

/-!
# `crypto/ecc/curve_meta.cc`, `crypto/ecc/ecc_spi.cc` and the curve factories

Names of curves, the table of predefined curves, and which library is asked for
which curve.  Names are lists of bytes.
-/

namespace Verif.Ecc.Names

/-- A `CurveName`: the bytes of the string. -/
abbrev Name := List Nat

/-- `n! "abc"` is the list of the codes of the characters. -/
syntax "n! " str : term
macro_rules
  | `(n! $s:str) => do
    let cs := s.getString.toList.map (fun c => Lean.Syntax.mkNumLit (toString c.toNat))
    let cs : Array (Lean.TSyntax `term) := (cs.map (fun c => ⟨c.raw⟩)).toArray
    `(([$cs,*] : List Nat))

/-- `absl::AsciiStrToLower`. -/
def lower (s : Name) : Name := s.map (fun c => if 65 ≤ c ∧ c ≤ 90 then c + 32 else c)

/-- `CurveForm` (`curve_meta.h:34-49`). -/
inductive Form
  | weierstrass
  | montgomery
  | edwards
  | twistedEdwards
  deriving DecidableEq

/-- `FieldType` (`curve_meta.h:51-61`). -/
inductive Fld
  | prime
  | binary
  | extension
  deriving DecidableEq

/-- `CurveMeta` (`curve_meta.h:63-72`). -/
structure Meta where
  name : Name
  aliases : List Name
  form : Form
  field : Fld
  bits : Nat
  deriving DecidableEq

/-- `IsEquivalent` (`curve_meta.cc:841-844`). -/
def Meta.equiv (a b : Meta) : Bool := a.form = b.form && a.field = b.field && a.bits = b.bits

/-- `LowerName` (`curve_meta.cc:839`). -/
def Meta.lowerName (a : Meta) : Name := lower a.name

/-- `std::map::find`. -/
def find {α : Type} (m : List (Name × α)) (k : Name) : Option α :=
  match m with
  | [] => none
  | (n, v) :: m => if n = k then some v else find m k

/-- The lambda `insert` in `BuildMap` (`curve_meta.cc:848-859`); `none` is the
exception for a duplicate name. -/
def insert (m : List (Name × Meta)) (nm : Name) (c : Meta) : Option (List (Name × Meta)) :=
  match find m (lower nm) with
  | none => some (m ++ [(lower nm, c)])
  | some old => if old.equiv c then some m else none

/-- The inner loop of `BuildMap` (`curve_meta.cc:863-865`). -/
def insertAll (m : List (Name × Meta)) (c : Meta) : List Name → Option (List (Name × Meta))
  | [] => some m
  | a :: as =>
    match insert m a c with
    | none => none
    | some m => insertAll m c as

/-- The loop of `BuildMap` (`curve_meta.cc:861-866`). -/
def buildFrom (m : List (Name × Meta)) : List Meta → Option (List (Name × Meta))
  | [] => some m
  | c :: cs =>
    match insert m c.name c with
    | none => none
    | some m =>
      match insertAll m c c.aliases with
      | none => none
      | some m => buildFrom m cs

/-- `BuildMap` (`curve_meta.cc:846-868`). -/
def buildMap (t : List Meta) : Option (List (Name × Meta)) := buildFrom [] t

/-- `GetCurveMetaByName` (`curve_meta.cc:869-875`) on the map; `none` is an
exception. -/
def get (m : List (Name × Meta)) (s : Name) : Option Meta := find m (lower s)

/-- `kPredefinedCurves` (`curve_meta.cc:30-837`). -/
def table : List Meta := [
  ⟨n! "secp112r1", [n! "wap-wsg-idm-ecid-wtls6"], .weierstrass, .prime, 56⟩,
  ⟨n! "secp112r2", [], .weierstrass, .prime, 56⟩,
  ⟨n! "secp128r1", [], .weierstrass, .prime, 64⟩,
  ⟨n! "secp128r2", [], .weierstrass, .prime, 64⟩,
  ⟨n! "secp160k1", [n! "ansip160k1"], .weierstrass, .prime, 80⟩,
  ⟨n! "secp160r1", [n! "wap-wsg-idm-ecid-wtls7", n! "ansip160r1"], .weierstrass, .prime, 80⟩,
  ⟨n! "secp160r2", [n! "ansip160r2"], .weierstrass, .prime, 80⟩,
  ⟨n! "secp192k1", [n! "ansip192k1"], .weierstrass, .prime, 96⟩,
  ⟨n! "secp192r1", [n! "P-192", n! "prime192v1"], .weierstrass, .prime, 96⟩,
  ⟨n! "secp224k1", [n! "ansip224k1"], .weierstrass, .prime, 112⟩,
  ⟨n! "secp224r1", [n! "P-224", n! "wap-wsg-idm-ecid-wtls12", n! "ansip224r1"], .weierstrass, .prime, 112⟩,
  ⟨n! "secp256k1", [n! "ansip256k1"], .weierstrass, .prime, 128⟩,
  ⟨n! "secp256r1", [n! "P-256", n! "prime256v1"], .weierstrass, .prime, 128⟩,
  ⟨n! "secp384r1", [n! "P-384", n! "ansip384r1"], .weierstrass, .prime, 192⟩,
  ⟨n! "secp521r1", [n! "P-521", n! "ansip521r1"], .weierstrass, .prime, 260⟩,
  ⟨n! "sect113r1", [n! "wap-wsg-idm-ecid-wtls4"], .weierstrass, .binary, 56⟩,
  ⟨n! "sect113r2", [], .weierstrass, .binary, 56⟩,
  ⟨n! "sect131r1", [], .weierstrass, .binary, 65⟩,
  ⟨n! "sect131r2", [], .weierstrass, .binary, 65⟩,
  ⟨n! "sect163k1", [n! "K-163", n! "ansit163k1", n! "wap-wsg-idm-ecid-wtls3"], .weierstrass, .binary, 81⟩,
  ⟨n! "sect163r1", [n! "ansit163r1"], .weierstrass, .binary, 81⟩,
  ⟨n! "sect163r2", [n! "B-163", n! "ansit163r2"], .weierstrass, .binary, 81⟩,
  ⟨n! "sect193r1", [n! "ansit193r1"], .weierstrass, .binary, 96⟩,
  ⟨n! "sect193r2", [n! "ansit193r2"], .weierstrass, .binary, 96⟩,
  ⟨n! "sect233k1", [n! "K-233", n! "wap-wsg-idm-ecid-wtls10", n! "ansit233k1"], .weierstrass, .binary, 116⟩,
  ⟨n! "sect233r1", [n! "B-233", n! "wap-wsg-idm-ecid-wtls11", n! "ansit233r1"], .weierstrass, .binary, 116⟩,
  ⟨n! "sect239k1", [n! "ansit239k1"], .weierstrass, .binary, 119⟩,
  ⟨n! "sect283k1", [n! "K-283", n! "ansit283k1"], .weierstrass, .binary, 141⟩,
  ⟨n! "sect283r1", [n! "B-283", n! "ansit283r1"], .weierstrass, .binary, 141⟩,
  ⟨n! "sect409k1", [n! "K-409", n! "ansit409k1"], .weierstrass, .binary, 204⟩,
  ⟨n! "sect409r1", [n! "B-409", n! "ansit409r1"], .weierstrass, .binary, 204⟩,
  ⟨n! "sect571k1", [n! "K-571", n! "ansit571k1"], .weierstrass, .binary, 285⟩,
  ⟨n! "sect571r1", [n! "B-571", n! "ansit571r1"], .weierstrass, .binary, 285⟩,
  ⟨n! "SM2", [], .weierstrass, .prime, 128⟩,
  ⟨n! "ansit163k1", [], .weierstrass, .binary, 81⟩,
  ⟨n! "ansit163r1", [n! "sect163r1"], .weierstrass, .binary, 81⟩,
  ⟨n! "ansit163r2", [n! "sect163r2", n! "B-163"], .weierstrass, .binary, 81⟩,
  ⟨n! "ansit193r1", [n! "sect193r1"], .weierstrass, .binary, 96⟩,
  ⟨n! "ansit193r2", [n! "sect193r2"], .weierstrass, .binary, 96⟩,
  ⟨n! "ansit233k1", [n! "sect233k1", n! "K-233", n! "wap-wsg-idm-ecid-wtls10"], .weierstrass, .binary, 116⟩,
  ⟨n! "ansit233r1", [n! "wap-wsg-idm-ecid-wtls11", n! "B-233", n! "sect233r1"], .weierstrass, .binary, 116⟩,
  ⟨n! "ansit239k1", [n! "sect239k1"], .weierstrass, .binary, 119⟩,
  ⟨n! "ansit283k1", [n! "K-283", n! "sect283k1"], .weierstrass, .binary, 141⟩,
  ⟨n! "ansit283r1", [n! "B-283", n! "sect283r1"], .weierstrass, .binary, 141⟩,
  ⟨n! "ansit409k1", [n! "K-409", n! "sect409k1"], .weierstrass, .binary, 204⟩,
  ⟨n! "ansit409r1", [n! "B-409", n! "sect409r1"], .weierstrass, .binary, 204⟩,
  ⟨n! "ansit571k1", [n! "K-571", n! "sect571k1"], .weierstrass, .binary, 285⟩,
  ⟨n! "ansit571r1", [n! "B-571", n! "sect571r1"], .weierstrass, .binary, 285⟩,
  ⟨n! "ansip160k1", [n! "secp160k1"], .weierstrass, .prime, 80⟩,
  ⟨n! "ansip160r1", [n! "secp160r1", n! "wap-wsg-idm-ecid-wtls7"], .weierstrass, .prime, 80⟩,
  ⟨n! "ansip160r2", [n! "secp160r2"], .weierstrass, .prime, 80⟩,
  ⟨n! "ansip192k1", [n! "secp192k1"], .weierstrass, .prime, 96⟩,
  ⟨n! "ansip224k1", [n! "secp224k1"], .weierstrass, .prime, 112⟩,
  ⟨n! "ansip224r1", [n! "wap-wsg-idm-ecid-wtls12", n! "P-224", n! "secp224r1"], .weierstrass, .prime, 112⟩,
  ⟨n! "ansip256k1", [n! "secp256k1"], .weierstrass, .prime, 128⟩,
  ⟨n! "ansip384r1", [n! "secp384r1", n! "P-384"], .weierstrass, .prime, 192⟩,
  ⟨n! "ansip521r1", [n! "secp521r1", n! "P-521"], .weierstrass, .prime, 260⟩,
  ⟨n! "prime192v1", [n! "secp192r1", n! "P-192"], .weierstrass, .prime, 96⟩,
  ⟨n! "prime192v2", [], .weierstrass, .prime, 96⟩,
  ⟨n! "prime192v3", [], .weierstrass, .prime, 96⟩,
  ⟨n! "prime239v1", [], .weierstrass, .prime, 119⟩,
  ⟨n! "prime239v2", [], .weierstrass, .prime, 119⟩,
  ⟨n! "prime239v3", [], .weierstrass, .prime, 119⟩,
  ⟨n! "prime256v1", [n! "secp256r1", n! "P-256"], .weierstrass, .prime, 128⟩,
  ⟨n! "c2pnb176w1", [], .weierstrass, .binary, 88⟩,
  ⟨n! "c2pnb163v1", [n! "wap-wsg-idm-ecid-wtls5"], .weierstrass, .binary, 81⟩,
  ⟨n! "c2pnb163v2", [], .weierstrass, .binary, 81⟩,
  ⟨n! "c2pnb163v3", [], .weierstrass, .binary, 81⟩,
  ⟨n! "c2pnb208w1", [], .weierstrass, .binary, 104⟩,
  ⟨n! "c2tnb191v3", [], .weierstrass, .binary, 95⟩,
  ⟨n! "c2tnb191v2", [], .weierstrass, .binary, 95⟩,
  ⟨n! "c2tnb191v1", [], .weierstrass, .binary, 95⟩,
  ⟨n! "c2tnb239v3", [], .weierstrass, .binary, 119⟩,
  ⟨n! "c2tnb239v2", [], .weierstrass, .binary, 119⟩,
  ⟨n! "c2tnb239v1", [], .weierstrass, .binary, 119⟩,
  ⟨n! "c2pnb272w1", [], .weierstrass, .binary, 136⟩,
  ⟨n! "c2pnb304w1", [], .weierstrass, .binary, 152⟩,
  ⟨n! "c2pnb368w1", [], .weierstrass, .binary, 184⟩,
  ⟨n! "c2tnb359v1", [], .weierstrass, .binary, 179⟩,
  ⟨n! "c2tnb431r1", [], .weierstrass, .binary, 215⟩,
  ⟨n! "c2onb191v4", [], .weierstrass, .binary, 95⟩,
  ⟨n! "c2onb191v5", [], .weierstrass, .binary, 95⟩,
  ⟨n! "c2onb239v4", [], .weierstrass, .binary, 119⟩,
  ⟨n! "c2onb239v5", [], .weierstrass, .binary, 119⟩,
  ⟨n! "gost256", [], .weierstrass, .prime, 128⟩,
  ⟨n! "gost512", [], .weierstrass, .prime, 256⟩,
  ⟨n! "id-tc26-gost-3410-12-512-paramSetA", [], .weierstrass, .prime, 256⟩,
  ⟨n! "id-tc26-gost-3410-12-512-paramSetB", [], .weierstrass, .prime, 256⟩,
  ⟨n! "id-GostR3410-2001-CryptoPro-A-ParamSet", [], .weierstrass, .prime, 128⟩,
  ⟨n! "id-GostR3410-2001-CryptoPro-B-ParamSet", [], .weierstrass, .prime, 128⟩,
  ⟨n! "id-GostR3410-2001-CryptoPro-C-ParamSet", [], .weierstrass, .prime, 128⟩,
  ⟨n! "id-tc26-gost-3410-2012-256-paramSetA", [], .twistedEdwards, .prime, 128⟩,
  ⟨n! "id-tc26-gost-3410-2012-512-paramSetC", [], .twistedEdwards, .prime, 256⟩,
  ⟨n! "FRP256v1", [], .weierstrass, .prime, 128⟩,
  ⟨n! "M-221", [], .montgomery, .prime, 110⟩,
  ⟨n! "M-383", [], .montgomery, .prime, 191⟩,
  ⟨n! "M-511", [], .montgomery, .prime, 255⟩,
  ⟨n! "E-222", [], .edwards, .prime, 111⟩,
  ⟨n! "E-382", [], .edwards, .prime, 191⟩,
  ⟨n! "E-521", [], .edwards, .prime, 260⟩,
  ⟨n! "Curve25519", [], .montgomery, .prime, 127⟩,
  ⟨n! "Curve448", [], .montgomery, .prime, 224⟩,
  ⟨n! "Curve22103", [], .weierstrass, .prime, 110⟩,
  ⟨n! "Curve4417", [], .weierstrass, .prime, 113⟩,
  ⟨n! "Curve1174", [], .weierstrass, .prime, 125⟩,
  ⟨n! "Curve67254", [], .weierstrass, .prime, 191⟩,
  ⟨n! "Curve383187", [], .montgomery, .prime, 141⟩,
  ⟨n! "Ed25519", [], .twistedEdwards, .prime, 127⟩,
  ⟨n! "Ristretto255", [], .twistedEdwards, .prime, 127⟩,
  ⟨n! "Ed448", [], .twistedEdwards, .prime, 224⟩,
  ⟨n! "Ed448-Goldilocks", [], .twistedEdwards, .prime, 224⟩,
  ⟨n! "Curve41417", [], .twistedEdwards, .prime, 207⟩,
  ⟨n! "Fp254BNa", [], .weierstrass, .prime, 127⟩,
  ⟨n! "Fp254n2BNa", [], .weierstrass, .extension, 254⟩,
  ⟨n! "Fp254BNb", [n! "bn254"], .weierstrass, .prime, 100⟩,
  ⟨n! "Fp224BN", [], .weierstrass, .prime, 112⟩,
  ⟨n! "Fp256BN", [], .weierstrass, .prime, 128⟩,
  ⟨n! "Fp384BN", [], .weierstrass, .prime, 192⟩,
  ⟨n! "Fp512BN", [], .weierstrass, .prime, 256⟩,
  ⟨n! "ssc-160", [], .weierstrass, .prime, 80⟩,
  ⟨n! "ssc-192", [], .weierstrass, .prime, 96⟩,
  ⟨n! "ssc-224", [], .weierstrass, .prime, 112⟩,
  ⟨n! "ssc-256", [], .weierstrass, .prime, 128⟩,
  ⟨n! "ssc-288", [], .weierstrass, .prime, 144⟩,
  ⟨n! "ssc-320", [], .weierstrass, .prime, 160⟩,
  ⟨n! "ssc-384", [], .weierstrass, .prime, 192⟩,
  ⟨n! "ssc-512", [], .weierstrass, .prime, 256⟩,
  ⟨n! "Tweedledum", [], .weierstrass, .prime, 127⟩,
  ⟨n! "Tweedledee", [], .weierstrass, .prime, 127⟩,
  ⟨n! "JubJub", [], .twistedEdwards, .prime, 127⟩,
  ⟨n! "Pallas", [], .weierstrass, .prime, 127⟩,
  ⟨n! "Vesta", [], .weierstrass, .prime, 127⟩,
  ⟨n! "MDC201601", [], .edwards, .prime, 128⟩,
  ⟨n! "BADA55-R-256", [], .weierstrass, .prime, 128⟩,
  ⟨n! "BADA55-VR-224", [], .weierstrass, .prime, 112⟩,
  ⟨n! "BADA55-VR-256", [], .weierstrass, .prime, 128⟩,
  ⟨n! "BADA55-VR-384", [], .weierstrass, .prime, 192⟩,
  ⟨n! "BADA55-VPR-224", [], .weierstrass, .prime, 112⟩,
  ⟨n! "BADA55-VPR2-224", [], .weierstrass, .prime, 112⟩,
  ⟨n! "P-192", [n! "secp192r1", n! "prime192v1"], .weierstrass, .prime, 96⟩,
  ⟨n! "P-224", [n! "secp224r1", n! "wap-wsg-idm-ecid-wtls12", n! "ansip224r1"], .weierstrass, .prime, 112⟩,
  ⟨n! "P-256", [n! "secp256r1", n! "prime256v1"], .weierstrass, .prime, 128⟩,
  ⟨n! "P-384", [n! "secp384r1", n! "ansip384r1"], .weierstrass, .prime, 192⟩,
  ⟨n! "P-521", [n! "secp521r1", n! "ansip521r1"], .weierstrass, .prime, 260⟩,
  ⟨n! "K-163", [n! "sect163k1"], .weierstrass, .binary, 81⟩,
  ⟨n! "B-163", [n! "sect163r2", n! "ansit163r2"], .weierstrass, .binary, 81⟩,
  ⟨n! "K-233", [n! "sect233k1", n! "wap-wsg-idm-ecid-wtls10", n! "ansit233k1"], .weierstrass, .binary, 116⟩,
  ⟨n! "B-233", [n! "sect233r1", n! "wap-wsg-idm-ecid-wtls11", n! "ansit233r1"], .weierstrass, .binary, 116⟩,
  ⟨n! "K-283", [n! "sect283k1", n! "ansit283k1"], .weierstrass, .binary, 141⟩,
  ⟨n! "B-283", [n! "sect283r1", n! "ansit283r1"], .weierstrass, .binary, 141⟩,
  ⟨n! "K-409", [n! "sect409k1", n! "ansit409k1"], .weierstrass, .binary, 204⟩,
  ⟨n! "B-409", [n! "sect409r1", n! "ansit409r1"], .weierstrass, .binary, 204⟩,
  ⟨n! "K-571", [n! "sect571k1", n! "ansit571k1"], .weierstrass, .binary, 285⟩,
  ⟨n! "B-571", [n! "sect571r1", n! "ansit571r1"], .weierstrass, .binary, 285⟩,
  ⟨n! "mnt1", [], .weierstrass, .prime, 85⟩,
  ⟨n! "mnt2/1", [], .weierstrass, .prime, 79⟩,
  ⟨n! "mnt2/2", [], .weierstrass, .prime, 79⟩,
  ⟨n! "mnt3/1", [], .weierstrass, .prime, 80⟩,
  ⟨n! "mnt3/2", [], .weierstrass, .prime, 80⟩,
  ⟨n! "mnt3/3", [], .weierstrass, .prime, 80⟩,
  ⟨n! "mnt4", [], .weierstrass, .prime, 120⟩,
  ⟨n! "mnt5/1", [], .weierstrass, .prime, 120⟩,
  ⟨n! "mnt5/2", [], .weierstrass, .prime, 120⟩,
  ⟨n! "mnt5/3", [], .weierstrass, .prime, 120⟩,
  ⟨n! "BLS12-377", [], .weierstrass, .prime, 128⟩,
  ⟨n! "BLS12-381", [], .weierstrass, .prime, 128⟩,
  ⟨n! "BLS12-446", [], .weierstrass, .prime, 128⟩,
  ⟨n! "BLS12-455", [], .weierstrass, .prime, 128⟩,
  ⟨n! "BLS12-638", [], .weierstrass, .prime, 128⟩,
  ⟨n! "BLS24-477", [], .weierstrass, .prime, 192⟩,
  ⟨n! "Bandersnatch", [], .twistedEdwards, .prime, 128⟩,
  ⟨n! "bn158", [], .weierstrass, .prime, 70⟩,
  ⟨n! "bn190", [], .weierstrass, .prime, 80⟩,
  ⟨n! "bn222", [], .weierstrass, .prime, 80⟩,
  ⟨n! "bn254", [n! "Fp254BNb"], .weierstrass, .prime, 100⟩,
  ⟨n! "bn_snark1", [], .weierstrass, .prime, 100⟩,
  ⟨n! "bn286", [], .weierstrass, .prime, 100⟩,
  ⟨n! "bn318", [], .weierstrass, .prime, 100⟩,
  ⟨n! "bn350", [], .weierstrass, .prime, 100⟩,
  ⟨n! "bn382", [], .weierstrass, .prime, 100⟩,
  ⟨n! "bn414", [], .weierstrass, .prime, 100⟩,
  ⟨n! "bn446", [], .weierstrass, .prime, 128⟩,
  ⟨n! "bn478", [], .weierstrass, .prime, 128⟩,
  ⟨n! "bn510", [], .weierstrass, .prime, 128⟩,
  ⟨n! "bn542", [], .weierstrass, .prime, 128⟩,
  ⟨n! "bn574", [], .weierstrass, .prime, 128⟩,
  ⟨n! "bn606", [], .weierstrass, .prime, 128⟩,
  ⟨n! "bn638", [], .weierstrass, .prime, 128⟩,
  ⟨n! "wap-wsg-idm-ecid-wtls1", [], .weierstrass, .binary, 56⟩,
  ⟨n! "wap-wsg-idm-ecid-wtls3", [n! "K-163", n! "sect163k1", n! "ansit163k1"], .weierstrass, .binary, 81⟩,
  ⟨n! "wap-wsg-idm-ecid-wtls4", [n! "sect113r1"], .weierstrass, .binary, 56⟩,
  ⟨n! "wap-wsg-idm-ecid-wtls5", [n! "c2pnb163v1"], .weierstrass, .binary, 81⟩,
  ⟨n! "wap-wsg-idm-ecid-wtls6", [n! "secp112r1"], .weierstrass, .prime, 56⟩,
  ⟨n! "wap-wsg-idm-ecid-wtls7", [n! "secp160r1", n! "ansip160r1"], .weierstrass, .prime, 80⟩,
  ⟨n! "wap-wsg-idm-ecid-wtls8", [], .weierstrass, .prime, 56⟩,
  ⟨n! "wap-wsg-idm-ecid-wtls9", [], .weierstrass, .prime, 80⟩,
  ⟨n! "wap-wsg-idm-ecid-wtls10", [n! "sect233k1", n! "K-233", n! "ansit233k1"], .weierstrass, .binary, 116⟩,
  ⟨n! "wap-wsg-idm-ecid-wtls11", [n! "sect233r1", n! "B-233", n! "ansit233r1"], .weierstrass, .binary, 116⟩,
  ⟨n! "wap-wsg-idm-ecid-wtls12", [n! "secp224r1", n! "P-224", n! "ansip224r1"], .weierstrass, .prime, 112⟩,
  ⟨n! "Oakley Group 3", [], .weierstrass, .binary, 77⟩,
  ⟨n! "Oakley Group 4", [], .weierstrass, .binary, 92⟩,
  ⟨n! "192-bit Random ECP Group", [], .weierstrass, .prime, 96⟩,
  ⟨n! "224-bit Random ECP Group", [], .weierstrass, .prime, 112⟩,
  ⟨n! "256-bit Random ECP Group", [], .weierstrass, .prime, 128⟩,
  ⟨n! "384-bit Random ECP Group", [], .weierstrass, .prime, 192⟩,
  ⟨n! "521-bit Random ECP Group", [], .weierstrass, .prime, 260⟩,
  ⟨n! "numsp256d1", [], .weierstrass, .prime, 128⟩,
  ⟨n! "numsp256t1", [], .twistedEdwards, .prime, 128⟩,
  ⟨n! "numsp384d1", [], .weierstrass, .prime, 192⟩,
  ⟨n! "numsp384t1", [], .twistedEdwards, .prime, 192⟩,
  ⟨n! "numsp512d1", [], .weierstrass, .prime, 256⟩,
  ⟨n! "numsp512t1", [], .twistedEdwards, .prime, 256⟩,
  ⟨n! "ed-256-mont", [], .twistedEdwards, .prime, 128⟩,
  ⟨n! "ed-254-mont", [], .twistedEdwards, .prime, 127⟩,
  ⟨n! "ed-255-mers", [], .twistedEdwards, .prime, 127⟩,
  ⟨n! "ed-384-mont", [], .twistedEdwards, .prime, 192⟩,
  ⟨n! "ed-382-mont", [], .twistedEdwards, .prime, 191⟩,
  ⟨n! "ed-383-mers", [], .twistedEdwards, .prime, 191⟩,
  ⟨n! "ed-512-mont", [], .twistedEdwards, .prime, 256⟩,
  ⟨n! "ed-510-mont", [], .twistedEdwards, .prime, 255⟩,
  ⟨n! "ed-511-mers", [], .twistedEdwards, .prime, 255⟩,
  ⟨n! "w-256-mont", [], .weierstrass, .prime, 128⟩,
  ⟨n! "w-254-mont", [], .weierstrass, .prime, 127⟩,
  ⟨n! "w-255-mers", [], .weierstrass, .prime, 127⟩,
  ⟨n! "w-384-mont", [], .weierstrass, .prime, 192⟩,
  ⟨n! "w-382-mont", [], .weierstrass, .prime, 191⟩,
  ⟨n! "w-383-mers", [], .weierstrass, .prime, 191⟩,
  ⟨n! "w-512-mont", [], .weierstrass, .prime, 256⟩,
  ⟨n! "w-510-mont", [], .weierstrass, .prime, 255⟩,
  ⟨n! "w-511-mers", [], .weierstrass, .prime, 255⟩,
  ⟨n! "brainpoolP160r1", [], .weierstrass, .prime, 80⟩,
  ⟨n! "brainpoolP160t1", [], .weierstrass, .prime, 80⟩,
  ⟨n! "brainpoolP192r1", [], .weierstrass, .prime, 96⟩,
  ⟨n! "brainpoolP192t1", [], .weierstrass, .prime, 96⟩,
  ⟨n! "brainpoolP224r1", [], .weierstrass, .prime, 112⟩,
  ⟨n! "brainpoolP224t1", [], .weierstrass, .prime, 112⟩,
  ⟨n! "brainpoolP256r1", [], .weierstrass, .prime, 128⟩,
  ⟨n! "brainpoolP256t1", [], .weierstrass, .prime, 128⟩,
  ⟨n! "brainpoolP320r1", [], .weierstrass, .prime, 160⟩,
  ⟨n! "brainpoolP320t1", [], .weierstrass, .prime, 160⟩,
  ⟨n! "brainpoolP384r1", [], .weierstrass, .prime, 192⟩,
  ⟨n! "brainpoolP384t1", [], .weierstrass, .prime, 192⟩,
  ⟨n! "brainpoolP512r1", [], .weierstrass, .prime, 256⟩,
  ⟨n! "brainpoolP512t1", [], .weierstrass, .prime, 256⟩,
  ⟨n! "FourQ", [], .twistedEdwards, .extension, 128⟩]

/-- `kName2Nid` (`openssl/openssl_factory.cc:47-136`); the identifiers without
`NID_`. -/
def name2Nid : List (Name × Name) := [
  (n! "secp112r1", n! "secp112r1"),
  (n! "secp112r2", n! "secp112r2"),
  (n! "secp128r1", n! "secp128r1"),
  (n! "secp128r2", n! "secp128r2"),
  (n! "secp160k1", n! "secp160k1"),
  (n! "secp160r1", n! "secp160r1"),
  (n! "secp160r2", n! "secp160r2"),
  (n! "secp192k1", n! "secp192k1"),
  (n! "secp192r1", n! "X9_62_prime192v1"),
  (n! "secp224k1", n! "secp224k1"),
  (n! "secp224r1", n! "secp224r1"),
  (n! "secp256r1", n! "X9_62_prime256v1"),
  (n! "secp256k1", n! "secp256k1"),
  (n! "secp384r1", n! "secp384r1"),
  (n! "secp521r1", n! "secp521r1"),
  (n! "prime192v2", n! "X9_62_prime192v2"),
  (n! "prime192v3", n! "X9_62_prime192v3"),
  (n! "prime239v1", n! "X9_62_prime239v1"),
  (n! "prime239v2", n! "X9_62_prime239v2"),
  (n! "prime239v3", n! "X9_62_prime239v3"),
  (n! "sect113r1", n! "sect113r1"),
  (n! "sect113r2", n! "sect113r2"),
  (n! "sect131r1", n! "sect131r1"),
  (n! "sect131r2", n! "sect131r2"),
  (n! "sect163k1", n! "sect163k1"),
  (n! "sect163r1", n! "sect163r1"),
  (n! "sect163r2", n! "sect163r2"),
  (n! "sect193r1", n! "sect193r1"),
  (n! "sect193r2", n! "sect193r2"),
  (n! "sect233k1", n! "sect233k1"),
  (n! "sect233r1", n! "sect233r1"),
  (n! "sect239k1", n! "sect239k1"),
  (n! "sect283k1", n! "sect283k1"),
  (n! "sect283r1", n! "sect283r1"),
  (n! "sect409k1", n! "sect409k1"),
  (n! "sect409r1", n! "sect409r1"),
  (n! "sect571k1", n! "sect571k1"),
  (n! "sect571r1", n! "sect571r1"),
  (n! "c2pnb163v1", n! "X9_62_c2pnb163v1"),
  (n! "c2pnb163v2", n! "X9_62_c2pnb163v2"),
  (n! "c2pnb163v3", n! "X9_62_c2pnb163v3"),
  (n! "c2pnb176v1", n! "X9_62_c2pnb176v1"),
  (n! "c2tnb191v1", n! "X9_62_c2tnb191v1"),
  (n! "c2tnb191v2", n! "X9_62_c2tnb191v2"),
  (n! "c2tnb191v3", n! "X9_62_c2tnb191v3"),
  (n! "c2pnb208w1", n! "X9_62_c2pnb208w1"),
  (n! "c2tnb239v1", n! "X9_62_c2tnb239v1"),
  (n! "c2tnb239v2", n! "X9_62_c2tnb239v2"),
  (n! "c2tnb239v3", n! "X9_62_c2tnb239v3"),
  (n! "c2pnb272w1", n! "X9_62_c2pnb272w1"),
  (n! "c2pnb304w1", n! "X9_62_c2pnb304w1"),
  (n! "c2tnb359v1", n! "X9_62_c2tnb359v1"),
  (n! "c2pnb368w1", n! "X9_62_c2pnb368w1"),
  (n! "c2tnb431r1", n! "X9_62_c2tnb431r1"),
  (n! "wap-wsg-idm-ecid-wtls1", n! "wap_wsg_idm_ecid_wtls1"),
  (n! "wap-wsg-idm-ecid-wtls3", n! "wap_wsg_idm_ecid_wtls3"),
  (n! "wap-wsg-idm-ecid-wtls4", n! "wap_wsg_idm_ecid_wtls4"),
  (n! "wap-wsg-idm-ecid-wtls5", n! "wap_wsg_idm_ecid_wtls5"),
  (n! "wap-wsg-idm-ecid-wtls6", n! "wap_wsg_idm_ecid_wtls6"),
  (n! "wap-wsg-idm-ecid-wtls7", n! "wap_wsg_idm_ecid_wtls7"),
  (n! "wap-wsg-idm-ecid-wtls8", n! "wap_wsg_idm_ecid_wtls8"),
  (n! "wap-wsg-idm-ecid-wtls9", n! "wap_wsg_idm_ecid_wtls9"),
  (n! "wap-wsg-idm-ecid-wtls10", n! "wap_wsg_idm_ecid_wtls10"),
  (n! "wap-wsg-idm-ecid-wtls11", n! "wap_wsg_idm_ecid_wtls11"),
  (n! "wap-wsg-idm-ecid-wtls12", n! "wap_wsg_idm_ecid_wtls12"),
  (n! "Oakley Group 3", n! "ipsec3"),
  (n! "Oakley Group 4", n! "ipsec4"),
  (n! "brainpoolp160r1", n! "brainpoolP160r1"),
  (n! "brainpoolp160t1", n! "brainpoolP160t1"),
  (n! "brainpoolp192r1", n! "brainpoolP192r1"),
  (n! "brainpoolp192t1", n! "brainpoolP192t1"),
  (n! "brainpoolp224r1", n! "brainpoolP224r1"),
  (n! "brainpoolp224t1", n! "brainpoolP224t1"),
  (n! "brainpoolp256r1", n! "brainpoolP256r1"),
  (n! "brainpoolp256t1", n! "brainpoolP256t1"),
  (n! "brainpoolp320r1", n! "brainpoolP320r1"),
  (n! "brainpoolp320t1", n! "brainpoolP320t1"),
  (n! "brainpoolp384r1", n! "brainpoolP384r1"),
  (n! "brainpoolp384t1", n! "brainpoolP384t1"),
  (n! "brainpoolp512r1", n! "brainpoolP512r1"),
  (n! "brainpoolp512t1", n! "brainpoolP512t1"),
  (n! "sm2", n! "sm2")]

/-- The keys of the tables of libsodium (`libsodium/sodium_factory.cc:27-46`),
lib25519 (`lib25519/lib25519_factory.cc:24-30`), mcl (`mcl/mcl_ec_factory.cc:19-30`)
and the toy library (`toy/factory.cc:22-56`). -/
def sodiumKeys : List Name := [n! "ed25519", n! "curve25519", n! "ristretto255"]
def lib25519Keys : List Name := [n! "ed25519"]
def toyKeys : List Name := [n! "secp256k1", n! "sm2", n! "curve25519"]
/-- With the curve's `mcl` constant. -/
def mclTable : List (Name × Name) := [
  (n! "secp192k1", n! "MCL_SECP192K1"), (n! "secp224k1", n! "MCL_SECP224K1"),
  (n! "secp256k1", n! "MCL_SECP256K1"), (n! "secp384r1", n! "MCL_SECP384R1"),
  (n! "secp192r1", n! "MCL_NIST_P192"), (n! "secp224r1", n! "MCL_NIST_P224"),
  (n! "secp256r1", n! "MCL_NIST_P256"), (n! "secp160k1", n! "MCL_SECP160K1")]

/-- The libraries that register themselves. -/
inductive Library
  | openssl
  | mcl
  | libsodium
  | lib25519
  | fourq
  | toy
  | cuda
  deriving DecidableEq

/-- The classes and constants the factories create a group with. -/
inductive Group
  /-- `EC_GROUP_new_by_curve_name(nid)` -/
  | openssl (nid : Name)
  /-- the class template for the constant -/
  | mcl (constant : Name)
  | sodiumEd25519
  | sodiumX25519
  | sodiumRistretto
  | lib25519
  | fourq
  | toyX
  | toyWeierstrass
  | cuda
  deriving DecidableEq

/-- The `IsSupported` functions (`openssl_factory.cc:153-155`,
`mcl_ec_factory.cc:62-64`, `sodium_factory.cc:62-64`, `lib25519_factory.cc:42-44`,
`FourQ_factory.cc:29`, `toy/factory.cc:66-68`, `cuda_sm2_group.cc:169-174`); for CUDA a
GPU is assumed to be present. -/
def isSupported (l : Library) (c : Meta) : Bool :=
  match l with
  | .openssl => (find name2Nid c.lowerName).isSome
  | .mcl => (find mclTable c.lowerName).isSome
  | .libsodium => sodiumKeys.contains c.lowerName
  | .lib25519 => lib25519Keys.contains c.lowerName
  | .fourq => c.lowerName = n! "fourq"
  | .toy => toyKeys.contains c.lowerName
  | .cuda => c.name = n! "SM2" || c.name = n! "sm2"

/-- The `Create` functions (`openssl_factory.cc:141-152`, `mcl_ec_factory.cc:45-60`,
`sodium_factory.cc:45-59`, `lib25519_factory.cc:32-41`, `FourQ_factory.cc:23-27`,
`toy/factory.cc:58-65`, `cuda_sm2_group.cc:165-167`); `none` is an exception.
Simplification: the libraries themselves do not fail. -/
def create (l : Library) (c : Meta) : Option Group :=
  match l with
  | .openssl => (find name2Nid c.lowerName).map .openssl
  | .mcl =>
    match find mclTable c.lowerName with
    | some k =>
      if [n! "MCL_SECP160K1", n! "MCL_SECP192K1", n! "MCL_SECP224K1", n! "MCL_SECP256K1", n! "MCL_SECP384R1",
          n! "MCL_NIST_P192", n! "MCL_NIST_P224", n! "MCL_NIST_P256"].contains k then some (.mcl k) else none
    | none => none
  | .libsodium =>
    if sodiumKeys.contains c.lowerName then
      if c.lowerName = n! "ed25519" then some .sodiumEd25519
      else if c.lowerName = n! "curve25519" then some .sodiumX25519
      else if c.lowerName = n! "ristretto255" then some .sodiumRistretto
      else none
    else none
  | .lib25519 =>
    if lib25519Keys.contains c.lowerName then
      if c.lowerName = n! "ed25519" then some .lib25519 else none
    else none
  | .fourq => if c.lowerName = n! "fourq" then some .fourq else none
  | .toy =>
    if toyKeys.contains c.lowerName then
      if c.form = .montgomery then some .toyX else some .toyWeierstrass
    else none
  | .cuda => some .cuda

/-- The checker that `EcGroupFactory::Register` installs (`ecc_spi.cc:31-39`): an
unknown name is not supported. -/
def checker (m : List (Name × Meta)) (l : Library) (s : Name) : Bool :=
  match get m s with
  | none => false
  | some c => isSupported l c

/-- The creator that `EcGroupFactory::Register` installs (`ecc_spi.cc:40-42`). -/
def creator (m : List (Name × Meta)) (l : Library) (s : Name) : Option Group :=
  match get m s with
  | none => none
  | some c => create l c

end Verif.Ecc.Names
