import Verif.Sse.Search

/-! Searchable encryption: saving and loading the encrypted database, yacl/crypto/experimental/sse/sse.cc. Property C107.

A file is the list of its bytes. A read past the end leaves sizes uninitialised in the code: `none`. Opening and writing files always succeeds. -/
namespace Yacl.Sse
open Yacl.TSet (Byte Bytes Entry Record)

/-- A `size_t` written with `write(reinterpret_cast<const char*>(&n), sizeof(size_t))` on a little-endian machine. -/
def le64 : Nat → Nat → Bytes
  | 0, _ => []
  | k + 1, n => BitVec.ofNat 8 n :: le64 k (n / 256)

/-- The `size_t` read back. -/
def rdLe : Bytes → Nat
  | [] => 0
  | b :: bs => b.toNat + 256 * rdLe bs

/-- A size and that many bytes. -/
def put (b : Bytes) : Bytes := le64 8 b.length ++ b

/-- Reads a size. -/
def getSize (f : Bytes) : Option (Nat × Bytes) := if f.length < 8 then none else some (rdLe (f.take 8), f.drop 8)

/-- Reads a size and that many bytes. -/
def get (f : Bytes) : Option (Bytes × Bytes) :=
  (getSize f).bind fun r => if r.2.length < r.1 then none else some (r.2.take r.1, r.2.drop r.1)

/-- sse.cc L454-472 `SaveKeys`; the map lists its pairs in key order. -/
def saveKeys (m : List (Bytes × Bytes)) : Bytes := m.flatMap fun p => put p.1 ++ put p.2

/-- sse.cc L533-561 `LoadKeys`: until the end of the file; `emplace` keeps the first value of a key. Simplified: the map is a list of pairs in order of insertion. -/
def loadKeys : Nat → Bytes → List (Bytes × Bytes) → Option (List (Bytes × Bytes))
  | 0, _, _ => none
  | fuel + 1, f, acc =>
    if f = [] then some acc else
    (get f).bind fun k => (get k.2).bind fun v =>
    loadKeys fuel v.2 (if k.1 ∈ acc.map Prod.fst then acc else acc ++ [(k.1, v.1)])

/-- sse.cc L474-500 `SaveTSet`: of each record only the value is written. -/
def saveTSet (t : List (List Record)) : Bytes := t.flatMap fun row => le64 8 row.length ++ row.flatMap fun r => put r.value

/-- sse.cc L573-580: the entries of one bucket; the label of a new `Record` is empty. -/
def loadRow : Nat → Bytes → Option (List Record × Bytes)
  | 0, f => some ([], f)
  | n + 1, f => (get f).bind fun v => (loadRow n v.2).map fun r => (⟨[], v.1⟩ :: r.1, r.2)

/-- sse.cc L563-585 `LoadTSet`: buckets until a size cannot be read. -/
def loadTSet : Nat → Bytes → Option (List (List Record))
  | 0, _ => none
  | fuel + 1, f =>
    if f.length < 8 then some [] else
    (getSize f).bind fun n => (loadRow n.1 n.2).bind fun r => (loadTSet fuel r.2).map fun t => r.1 :: t

/-- sse.cc L502-531 `SaveXSet`: the affine coordinates in decimal. -/
def saveXSet (pts : List (Nat × Nat)) : Bytes := le64 8 pts.length ++ pts.flatMap fun p => put (decBytes p.1) ++ put (decBytes p.2)

/-- sse.cc L596-611: the points. -/
def loadPoints : Nat → Bytes → Option (List (Nat × Nat))
  | 0, _ => some []
  | n + 1, f => (get f).bind fun x => (get x.2).bind fun y => (loadPoints n y.2).map fun r => (parseDec x.1, parseDec y.1) :: r

/-- sse.cc L587-613 `LoadXSet`. -/
def loadXSet (f : Bytes) : Option (List (Nat × Nat)) := (getSize f).bind fun n => loadPoints n.1 n.2

/-! ### Lemmas -/

theorem le64_length (k n : Nat) : (le64 k n).length = k := by
  induction k generalizing n with
  | zero => rfl
  | succ k ih => simp [le64, ih]

theorem rdLe_le64 (k n : Nat) (h : n < 256 ^ k) : rdLe (le64 k n) = n := by
  induction k generalizing n with
  | zero => simp at h; subst h; rfl
  | succ k ih =>
    simp only [le64, rdLe, BitVec.toNat_ofNat]
    rw [ih (n / 256) (by rw [pow_succ] at h; exact Nat.div_lt_of_lt_mul (by rw [mul_comm]; exact h))]
    omega

theorem getSize_le64 (n : Nat) (f : Bytes) (h : n < 256 ^ 8) : getSize (le64 8 n ++ f) = some (n, f) := by
  unfold getSize
  rw [if_neg (by simp [le64_length])]
  have h1 : (le64 8 n ++ f).take 8 = le64 8 n := by rw [List.take_append_of_le_length (by simp [le64_length]), List.take_of_length_le (by simp [le64_length])]
  have h2 : (le64 8 n ++ f).drop 8 = f := by
    have := List.drop_left (l₁ := le64 8 n) (l₂ := f)
    rwa [le64_length] at this
  rw [h1, h2, rdLe_le64 _ _ h]

theorem get_put (b f : Bytes) (h : b.length < 256 ^ 8) : get (put b ++ f) = some (b, f) := by
  unfold get put
  rw [List.append_assoc, getSize_le64 _ _ h]
  simp

theorem put_ne (b f : Bytes) : put b ++ f ≠ [] := by
  intro h
  have := congrArg List.length h
  simp [put, le64_length] at this

/-- C107. The keys: what was saved is loaded. -/
theorem C107_keys (m : List (Bytes × Bytes)) (hnd : (m.map Prod.fst).Nodup) (hsz : ∀ p ∈ m, p.1.length < 256 ^ 8 ∧ p.2.length < 256 ^ 8) :
    loadKeys ((saveKeys m).length + 1) (saveKeys m) [] = some m := by
  have gen : ∀ (m acc : List (Bytes × Bytes)) (fuel : Nat), ((acc ++ m).map Prod.fst).Nodup → (∀ p ∈ m, p.1.length < 256 ^ 8 ∧ p.2.length < 256 ^ 8) →
      (saveKeys m).length < fuel → loadKeys fuel (saveKeys m) acc = some (acc ++ m) := by
    intro m
    induction m with
    | nil =>
      intro acc fuel _ _ hf
      obtain ⟨f, rfl⟩ : ∃ f, fuel = f + 1 := ⟨fuel - 1, by simp [saveKeys] at hf; omega⟩
      simp [loadKeys, saveKeys]
    | cons p m ih =>
      intro acc fuel hnd hsz hf
      obtain ⟨f, rfl⟩ : ∃ f, fuel = f + 1 := ⟨fuel - 1, by omega⟩
      obtain ⟨k, v⟩ := p
      obtain ⟨h1, h2⟩ := hsz _ List.mem_cons_self
      have e : saveKeys ((k, v) :: m) = put k ++ (put v ++ saveKeys m) := by simp [saveKeys]
      rw [loadKeys, e, if_neg (put_ne _ _), get_put _ _ h1]
      simp only [Option.bind_some]
      rw [get_put _ _ h2]
      simp only [Option.bind_some]
      have hk : k ∉ acc.map Prod.fst := by
        rw [List.map_append, List.nodup_append] at hnd
        intro hc
        exact hnd.2.2 k hc k (by simp) rfl
      rw [if_neg hk, ih (acc ++ [(k, v)]) f (by rw [List.append_assoc]; exact hnd) (fun p hp => hsz p (List.mem_cons_of_mem _ hp))
        (by rw [e] at hf; simp [put, le64_length] at hf; omega)]
      simp
  exact gen m [] _ hnd hsz (Nat.lt_succ_self _)

/-- C107. The tags: the points that were saved are loaded. -/
theorem C107_xset (pts : List (Nat × Nat)) (hlen : pts.length < 256 ^ 8) (hsz : ∀ p ∈ pts, p.1 < 10 ^ 1000 ∧ p.2 < 10 ^ 1000) :
    loadXSet (saveXSet pts) = some pts := by
  unfold loadXSet saveXSet
  rw [getSize_le64 _ _ hlen]
  simp only [Option.bind_some]
  clear hlen
  have hd : ∀ x : Nat, x < 10 ^ 1000 → (decBytes x).length < 256 ^ 8 := by
    intro x hx
    have := dec_length x 1000 (by decide) hx
    omega
  induction pts with
  | nil => rfl
  | cons p pts ih =>
    obtain ⟨x, y⟩ := p
    obtain ⟨h1, h2⟩ := hsz _ List.mem_cons_self
    simp only [List.flatMap_cons, List.length_cons, loadPoints, List.append_assoc]
    rw [get_put _ _ (hd x h1)]
    simp only [Option.bind_some]
    rw [get_put _ _ (hd y h2)]
    simp only [Option.bind_some]
    rw [ih (fun p hp => hsz p (List.mem_cons_of_mem _ hp))]
    simp [parse_dec]

/-- C107, partial: the table comes back with its shape and values, but every label is empty. -/
theorem C107_tset_partial (t : List (List Record)) (hsz : ∀ row ∈ t, row.length < 256 ^ 8 ∧ ∀ r ∈ row, r.value.length < 256 ^ 8) :
    loadTSet ((saveTSet t).length + 1) (saveTSet t) = some (t.map fun row => row.map fun r => ⟨[], r.value⟩) := by
  have hrow : ∀ (row : List Record) (f : Bytes), (∀ r ∈ row, r.value.length < 256 ^ 8) →
      loadRow row.length (row.flatMap (fun r => put r.value) ++ f) = some (row.map fun r => ⟨[], r.value⟩, f) := by
    intro row f
    induction row with
    | nil => intro _; rfl
    | cons r row ih =>
      intro h
      simp only [List.flatMap_cons, List.length_cons, loadRow, List.append_assoc]
      rw [get_put _ _ (h r List.mem_cons_self)]
      simp only [Option.bind_some]
      rw [ih (fun r hr => h r (List.mem_cons_of_mem _ hr))]
      simp
  have gen : ∀ (t : List (List Record)) (fuel : Nat), (∀ row ∈ t, row.length < 256 ^ 8 ∧ ∀ r ∈ row, r.value.length < 256 ^ 8) → (saveTSet t).length < fuel →
      loadTSet fuel (saveTSet t) = some (t.map fun row => row.map fun r => ⟨[], r.value⟩) := by
    intro t
    induction t with
    | nil =>
      intro fuel _ hf
      obtain ⟨f, rfl⟩ : ∃ f, fuel = f + 1 := ⟨fuel - 1, by simp [saveTSet] at hf; omega⟩
      simp [loadTSet, saveTSet]
    | cons row t ih =>
      intro fuel h hf
      obtain ⟨f, rfl⟩ : ∃ f, fuel = f + 1 := ⟨fuel - 1, by omega⟩
      obtain ⟨h1, h2⟩ := h row List.mem_cons_self
      have e : saveTSet (row :: t) = le64 8 row.length ++ (row.flatMap (fun r => put r.value) ++ saveTSet t) := by simp [saveTSet]
      rw [e] at hf ⊢
      rw [loadTSet, if_neg (by simp [le64_length]), getSize_le64 _ _ h1]
      simp only [Option.bind_some]
      rw [hrow row _ h2]
      simp only [Option.bind_some]
      rw [ih f (fun r hr => h r (List.mem_cons_of_mem _ hr)) (by simp [le64_length] at hf; omega)]
      simp
  exact gen t _ hsz (Nat.lt_succ_self _)

/-! ### Searching a loaded database -/

theorem storeOne_shape {Str : Type} (P : TSet.Prims Str) (b s lambda : Nat) (stag : Str) (n i : Nat) (e : Entry) (draw : Nat) (st st' : TSet.State)
    (h : TSet.storeOne P b s lambda stag n i e draw st = some (some st')) (hrow : ∀ row ∈ st.table, row.length = s) :
    st'.table.length = st.table.length ∧ ∀ row ∈ st'.table, row.length = s := by
  unfold TSet.storeOne at h
  simp only [Option.bind_eq_bind, Option.pure_def] at h
  obtain ⟨fr, -, h⟩ := Option.bind_eq_some_iff.1 h
  by_cases hfr : fr = []
  · rw [if_pos hfr] at h; cases h
  · rw [if_neg hfr] at h
    obtain ⟨enc, -, h⟩ := Option.bind_eq_some_iff.1 h
    obtain ⟨row, hr, h⟩ := Option.bind_eq_some_iff.1 h
    simp only [Option.some.injEq] at h
    subst h
    refine ⟨by simp, ?_⟩
    intro x hx
    rcases List.mem_or_eq_of_mem_set hx with h | h
    · exact hrow x h
    · rw [h, List.length_set]
      exact hrow row (List.mem_of_getElem? hr)

theorem setupRound_shape {Str : Type} (P : TSet.Prims Str) (b s lambda : Nat) (kt : Str) (T : Str → List Entry) (draws : Str → Nat → Nat) (ws : List Str)
    (st st' : TSet.State) (h : TSet.setupRound P b s lambda kt T draws ws st = some (some st')) (hrow : ∀ row ∈ st.table, row.length = s) :
    st'.table.length = st.table.length ∧ ∀ row ∈ st'.table, row.length = s := by
  have hall : ∀ (stag : Str) (n : Nat) (dr : Nat → Nat) (es : List Entry) (i : Nat) (st st' : TSet.State),
      TSet.storeAll P b s lambda stag n dr i es st = some (some st') → (∀ row ∈ st.table, row.length = s) →
      st'.table.length = st.table.length ∧ ∀ row ∈ st'.table, row.length = s := by
    intro stag n dr es
    induction es with
    | nil =>
      intro i st st' h hr
      simp only [TSet.storeAll, Option.some.injEq] at h
      subst h
      exact ⟨rfl, hr⟩
    | cons e es ih =>
      intro i st st' h hr
      simp only [TSet.storeAll, Option.bind_eq_bind, Option.bind_eq_some_iff] at h
      obtain ⟨o, ho, h⟩ := h
      cases o with
      | none => cases h
      | some st1 =>
        obtain ⟨a1, a2⟩ := storeOne_shape P b s lambda stag n i e (dr i) st st1 ho hr
        obtain ⟨b1, b2⟩ := ih (i + 1) st1 st' h a2
        exact ⟨b1.trans a1, b2⟩
  induction ws generalizing st with
  | nil =>
    simp only [TSet.setupRound, Option.some.injEq] at h
    subst h
    exact ⟨rfl, hrow⟩
  | cons w ws ih =>
    simp only [TSet.setupRound, Option.bind_eq_bind, Option.bind_eq_some_iff] at h
    obtain ⟨o, ho, h⟩ := h
    cases o with
    | none => cases h
    | some st1 =>
      obtain ⟨a1, a2⟩ := hall _ _ _ _ 1 st st1 ho hrow
      obtain ⟨b1, b2⟩ := ih st1 h a2
      exact ⟨b1.trans a1, b2⟩

variable {KW : Type} [DecidableEq KW] {G : Type} [AddCommGroup G] [DecidableEq G]

/-- C107, violated: after `SaveEDB` and `LoadEDB`, every search, for every query, returns nothing, although before saving a search for any keyword of the database
returned its records. (The labels are not written to the file.) -/
theorem C107_search_violated (K : Keyed KW) (P : TSet.Prims KW) (hsha : ∀ m k, (P.sha m k).length = 32) (hsm3 : ∀ m, (P.sm3 m).length = 32)
    (b s lambda : Nat) (hb : 0 < b) (hs : 0 < s) (hl : 8 ≤ lambda) (kt : KW)
    (n : Nat) [Fact n.Prime] (hn : n < 10 ^ 100) (B : G) (hB : addOrderOf B = n) (index : KW → List Bytes) (keywords : List KW) (hidx : GoodIndex index keywords)
    (draws : KW → Nat → Nat) (old : List (List Record)) (slots : KW → Nat → Nat) (db : Db KW G) (st : TSet.State)
    (hset : Setup K P b s lambda kt n B index keywords draws old slots db st) (hcol : NoCollisions K P b lambda kt n index keywords old db [])
    (hsz : ∀ row ∈ st.table, row.length < 256 ^ 8 ∧ ∀ r ∈ row, r.value.length < 256 ^ 8)
    (order : List (Nat × Bool) → List (Nat × Bool)) :
    ∃ table, loadTSet ((saveTSet st.table).length + 1) (saveTSet st.table) = some table ∧
      (∀ xset iv ws phi, search K P b s lambda kt n B table xset iv ws phi order = .ok []) ∧
      ∀ w ∈ keywords, search K P b s lambda kt n B st.table db.xset db.iv [w] [] order = .ok ((index w).take 100) ∧ (index w).take 100 ≠ [] := by
  refine ⟨_, C107_tset_partial st.table hsz, ?_, ?_⟩
  · intro xset iv ws phi
    cases ws with
    | nil => rfl
    | cons w1 rest =>
      obtain ⟨sh1, sh2⟩ := setupRound_shape P b s lambda kt _ slots keywords _ st hset.stored hset.shape.2
      have hret := TSet.C53_absent P b s lambda (st.table.map fun row => row.map fun r => ⟨[], r.value⟩) (P.tag kt w1) hb
        (by rw [List.length_map, sh1]; exact hset.shape.1)
        (by
          intro row hrow
          obtain ⟨row', hr', rfl⟩ := List.mem_map.mp hrow
          rw [List.length_map]
          exact sh2 row' hr')
        (by
          intro i _ _ r hr
          have hlab : r.label = [] := by
            rw [List.getD_eq_getElem?_getD, List.getElem?_map] at hr
            cases hq : st.table[TSet.bucketOf (P.sm3 (P.mac (P.tag kt w1) i)) b]? with
            | none => rw [hq] at hr; cases hr
            | some row =>
              rw [hq] at hr
              simp only [Option.map_some, Option.getD_some, List.mem_map] at hr
              obtain ⟨r', -, rfl⟩ := hr
              rfl
          rw [hlab]
          intro hc
          have := congrArg List.length hc
          simp only [TSet.labelOf, List.length_nil, List.length_take, hsm3] at this
          omega)
      unfold search
      simp only [hret]
      rfl
  · intro w hw
    refine ⟨C105_hundred K P hsha b s lambda hb hs kt n hn B hB index keywords hidx draws old slots db st hset hcol w hw order, ?_⟩
    intro hc
    have := congrArg List.length hc
    have h0 := List.length_pos_of_ne_nil (hidx.some_id w hw)
    simp at this
    exact hidx.some_id w hw this

/-- C107, violated: the IVs are not saved either. With no IVs, a search that has a match throws. -/
theorem C107_iv_violated (K : Keyed KW) (P : TSet.Prims KW) (b s lambda : Nat) (kt : KW) (n : Nat) (B : G) (table : List (List Record)) (xset : List G)
    (w1 : KW) (rest : List KW) (phi : Str) (order : List (Nat × Bool) → List (Nat × Bool)) (iv : List (Bytes × Nat)) (res : List Bytes)
    (h : search K P b s lambda kt n B table xset iv (w1 :: rest) phi order = .ok res) (hne : res ≠ []) :
    search K P b s lambda kt n B table xset [] (w1 :: rest) phi order = .throws := by
  unfold search at h ⊢
  simp only at h ⊢
  cases hr : TSet.retrieve P b s lambda table (P.tag kt w1) with
  | none => rw [hr] at h; cases h
  | some t =>
    rw [hr] at h
    simp only at h ⊢
    cases hm : matches_ K n B xset w1 rest phi order 1 t with
    | none => rw [hm] at h; cases h
    | some es =>
      rw [hm] at h
      simp only at h ⊢
      cases es with
      | nil =>
        simp only [decryptAll, Out.ok.injEq] at h
        exact absurd h.symm hne
      | cons e es => rfl

/-- Non-vacuity: a small table and map. -/
example : loadTSet 1000 (saveTSet [[⟨[1, 2], [3]⟩, ⟨[4], []⟩], []]) = some [[⟨[], [3]⟩, ⟨[], []⟩], []] := by decide +kernel
example : loadKeys 1000 (saveKeys [([75], [1, 2]), ([76], [])]) [] = some [([75], [1, 2]), ([76], [])] := by decide +kernel
example : loadXSet (saveXSet [(12, 0), (7, 345)]) = some [(12, 0), (7, 345)] := by decide +kernel

end Yacl.Sse
