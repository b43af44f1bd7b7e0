import Verif.Ecc.CurveNamesProps

/-!
# C123: the table of predefined curves and the tables of the libraries
-/

namespace Verif.Ecc.Names

/-- The names of a curve as a list. -/
def all (c : Meta) : List Name := c.name :: c.aliases

theorem first_congr (t : List Meta) {s s' : Name} (h : lower s = lower s') : first t s = first t s' := by
  have : ∀ c, Names c s ↔ Names c s' := fun c => by unfold Names; rw [h]
  unfold first
  simp only [this]

/-- Every name and alias of the table. -/
theorem table_names : (table.all fun c => (all c).all fun a =>
    match first table a with
    | none => false
    | some d => d.equiv c && decide (first table d.name = some d)) = true := by decide +kernel

theorem names_all {c : Meta} {s : Name} (h : Names c s) : ∃ a ∈ all c, lower s = lower a := by
  rcases h with h | ⟨a, ha, h⟩
  · exact ⟨c.name, List.mem_cons_self, h⟩
  · exact ⟨a, List.mem_cons_of_mem _ ha, h⟩

theorem table_first {c : Meta} (hc : c ∈ table) {s : Name} (hs : Names c s) :
    ∃ d, first table s = some d ∧ d.equiv c = true ∧ first table d.name = some d := by
  obtain ⟨a, ha, h⟩ := names_all hs
  have := List.all_eq_true.mp (List.all_eq_true.mp table_names c hc) a ha
  rw [first_congr table h]
  revert this
  cases first table a with
  | none => simp
  | some d =>
    intro this
    simp only [Bool.and_eq_true, decide_eq_true_iff] at this
    exact ⟨d, rfl, this.1, this.2⟩

/-- **C123.** The map of the predefined curves is built without exception; every
curve is found under each of its names and aliases, in any case, as a curve of the
same form, field and security level; and the name of the curve that is found leads
to that curve again. -/
theorem C123_table : ∃ m, buildMap table = some m ∧
    (∀ c ∈ table, ∀ s, Names c s → ∃ d, get m s = some d ∧ d.form = c.form ∧ d.field = c.field ∧ d.bits = c.bits) ∧
    (∀ s d, get m s = some d → d ∈ table ∧ Names d s ∧ get m d.name = some d) := by
  have heq : ∀ x c : Meta, x.equiv c = true → x.form = c.form ∧ x.field = c.field ∧ x.bits = c.bits := by
    intro x c; simp [Meta.equiv, and_assoc]
  obtain ⟨m, hm⟩ := (C123_build table).mpr (by
    intro c hc s hs x hx
    obtain ⟨d, h1, h2, _⟩ := table_first hc hs
    unfold first at h1
    rw [h1] at hx
    cases hx
    exact heq _ _ h2)
  refine ⟨m, hm, fun c hc s hs => ?_, fun s d hd => ?_⟩
  · obtain ⟨d, h1, h2, _⟩ := table_first hc hs
    exact ⟨d, by rw [C123_lookup table m hm]; exact h1, heq _ _ h2⟩
  · rw [C123_lookup table m hm] at hd
    have h1 : d ∈ table := List.mem_of_find?_eq_some hd
    have h2 : Names d s := by simpa using List.find?_some hd
    obtain ⟨d', h3, _, h4⟩ := table_first h1 h2
    unfold first at h3
    rw [hd] at h3
    cases h3
    exact ⟨h1, h2, by rw [C123_lookup table m hm]; exact h4⟩

/-- The letters and digits of an OpenSSL identifier without `X9_62_`, `_` for `-`. -/
def plain (nid : Name) : Name :=
  lower (((if (n! "X9_62_").isPrefixOf nid then nid.drop 6 else nid)).map (fun c => if c = 95 then 45 else c))

/-- **C123.** OpenSSL is asked for the curve of that name: each entry of its table
is the identifier of the same name, or one of the two synonyms `prime192v1` of
`secp192r1` and `prime256v1` of `secp256r1`, or one of the two Oakley groups. -/
theorem C123_nids : ∀ e ∈ name2Nid, plain e.2 = e.1 ∨
    e ∈ [(n! "secp192r1", n! "X9_62_prime192v1"), (n! "secp256r1", n! "X9_62_prime256v1"),
      (n! "Oakley Group 3", n! "ipsec3"), (n! "Oakley Group 4", n! "ipsec4")] := by decide +kernel

/-- **C123.** The toy library, libsodium, lib25519 and FourQ create the kind of
group that fits the form of each curve of the table. -/
theorem C123_forms : ∀ c ∈ table,
    (create .toy c = some .toyX → c.form = .montgomery) ∧
    (create .toy c = some .toyWeierstrass → c.form = .weierstrass) ∧
    (create .libsodium c = some .sodiumX25519 → c.form = .montgomery) ∧
    (create .libsodium c = some .sodiumEd25519 → c.form = .twistedEdwards) ∧
    (create .lib25519 c = some .lib25519 → c.form = .twistedEdwards) ∧
    (create .fourq c = some .fourq → c.form = .twistedEdwards ∧ c.field = .extension) ∧
    (isSupported .cuda c = true → c.lowerName = n! "sm2") := by decide +kernel

/-- **C123.** Every name in the tables of mcl, libsodium, lib25519 and the toy
library is the name of a predefined curve under which the library is reached. -/
theorem C123_reachable (m : List (Name × Meta)) (h : buildMap table = some m) :
    (∀ k ∈ mclTable.map Prod.fst, checker m .mcl k = true) ∧ (∀ k ∈ sodiumKeys, checker m .libsodium k = true) ∧
    (∀ k ∈ lib25519Keys, checker m .lib25519 k = true) ∧ (∀ k ∈ toyKeys, checker m .toy k = true) ∧
    checker m .fourq (n! "fourq") = true ∧ checker m .cuda (n! "sm2") = true := by
  have hc : ∀ l s, checker m l s = match first table s with | none => false | some c => isSupported l c := by
    intro l s
    unfold checker
    rw [C123_lookup table m h]
    rfl
  simp only [hc]
  decide +kernel

/-- **C123.** In the same sense, the names in OpenSSL's table that can be reached:
all but three.  Partial, see `C123_openssl_violated`. -/
theorem C123_openssl_partial (m : List (Name × Meta)) (h : buildMap table = some m) :
    ∀ k ∈ name2Nid.map Prod.fst, checker m .openssl k = true ∨
      k ∈ [n! "Oakley Group 3", n! "Oakley Group 4", n! "c2pnb176v1"] := by
  have hc : ∀ s, checker m .openssl s =
      match first table s with | none => false | some c => isSupported .openssl c := by
    intro s
    unfold checker
    rw [C123_lookup table m h]
    rfl
  simp only [hc]
  decide +kernel

/-- **C123, violated.** OpenSSL's curves `ipsec3`, `ipsec4` and `c2pnb176v1` are in
the library's table, but no name whatsoever leads to them: the first two are filed
under keys with capitals, the third is not a predefined curve. -/
theorem C123_openssl_violated (m : List (Name × Meta)) (h : buildMap table = some m) :
    (∃ k ∈ name2Nid, k.2 = n! "ipsec3") ∧ (∃ k ∈ name2Nid, k.2 = n! "ipsec4") ∧
    (∃ k ∈ name2Nid, k.2 = n! "X9_62_c2pnb176v1") ∧
    (∃ c ∈ table, c.name = n! "Oakley Group 3") ∧
    ∀ s, creator m .openssl s ≠ some (.openssl (n! "ipsec3")) ∧ creator m .openssl s ≠ some (.openssl (n! "ipsec4")) ∧
      creator m .openssl s ≠ some (.openssl (n! "X9_62_c2pnb176v1")) := by
  refine ⟨by decide +kernel, by decide +kernel, by decide +kernel, by decide +kernel, fun s => ?_⟩
  have hall : ∀ c ∈ table, create .openssl c ≠ some (.openssl (n! "ipsec3")) ∧
      create .openssl c ≠ some (.openssl (n! "ipsec4")) ∧
      create .openssl c ≠ some (.openssl (n! "X9_62_c2pnb176v1")) := by decide +kernel
  unfold creator
  cases hg : get m s with
  | none => simp
  | some c =>
    rw [C123_lookup table m h] at hg
    exact hall c (List.mem_of_find?_eq_some hg)

/-- A table with a clash, and one without. -/
example : buildMap [⟨n! "A", [n! "b"], .weierstrass, .prime, 80⟩, ⟨n! "B", [], .weierstrass, .prime, 81⟩] = none ∧
    (buildMap [⟨n! "A", [n! "b"], .weierstrass, .prime, 80⟩, ⟨n! "B", [], .weierstrass, .prime, 80⟩]).isSome := by
  decide +kernel

/-- `NIST P-256` names, in odd cases. -/
example : (first table (n! "PRIME256v1")).map (·.name) = some (n! "secp256r1") ∧
    lower (n! "Prime256V1") = lower (n! "PRIME256v1") := by decide +kernel

example : create .openssl ⟨n! "SECP256R1", [], .weierstrass, .prime, 128⟩ = some (.openssl (n! "X9_62_prime256v1")) ∧
    isSupported .openssl ⟨n! "FourQ", [], .twistedEdwards, .extension, 128⟩ = false := by decide +kernel

end Verif.Ecc.Names
