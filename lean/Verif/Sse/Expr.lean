import Mathlib.Data.List.Basic
import Mathlib.Tactic.SplitIfs

/-! Boolean queries of searchable encryption: sse.cc `EvaluateExpression`. Property C106. -/
namespace Yacl.Sse

abbrev Str := List Char

/-- sse.cc L146-178: the `find` / `replace` loops. All of them continue behind the replacement. `k` characters of a match that has been replaced are still to be
skipped. -/
def replaceAll (pat rep : Str) : Str → Nat → Str
  | [], _ => []
  | _ :: s, k + 1 => replaceAll pat rep s k
  | c :: s, 0 => if pat.isPrefixOf (c :: s) then rep ++ replaceAll pat rep s (pat.length - 1) else c :: replaceAll pat rep s 0

/-- `std::isspace` in the C locale. -/
def isSpace (c : Char) : Bool := c = ' ' ∨ c = '\t' ∨ c = '\n' ∨ c = '\r' ∨ c.toNat = 11 ∨ c.toNat = 12

/-- sse.cc L181-184: the tokens `iss >> token` reads; `acc` is the token being read. -/
def words : Str → Str → List Str
  | [], acc => if acc = [] then [] else [acc]
  | c :: s, acc => if isSpace c then (if acc = [] then words s [] else acc :: words s []) else words s (acc ++ [c])

/-- The operators on the stack. -/
inductive Op
  | and
  | or
  | not
deriving DecidableEq

/-- sse.cc L186-196: the tokens go to the two stacks (top first); `none` is the early `return false`. -/
def push : List Str → List Bool → List Op → Option (List Bool × List Op)
  | [], v, o => some (v, o)
  | t :: ts, v, o =>
    if t = "true".toList then push ts (true :: v) o
    else if t = "false".toList then push ts (false :: v) o
    else if t = "&&".toList then push ts v (.and :: o)
    else if t = "||".toList then push ts v (.or :: o)
    else if t = "!".toList then push ts v (.not :: o)
    else none

/-- sse.cc L198-222: the operators are applied from the top; `none` is a read of an empty stack (undefined behaviour). -/
def apply : List Op → List Bool → Option (List Bool)
  | [], v => some v
  | .and :: o, r :: l :: v => apply o ((l && r) :: v)
  | .or :: o, r :: l :: v => apply o ((l || r) :: v)
  | .not :: o, r :: v => apply o ((!r) :: v)
  | _ :: _, _ => none

/-- The name of variable `i`: `"v" + std::to_string(i)`. -/
def var (i : Nat) : Str := 'v' :: Nat.toDigits 10 i

/-- sse.cc L141-225 `EvaluateExpression`; `values` lists the map in its iteration order, which the standard leaves open. `none` is undefined behaviour. -/
def evaluate (expr : Str) (values : List (Nat × Bool)) : Option Bool :=
  let e := replaceAll "AND".toList "&&".toList expr 0
  let e := replaceAll "OR".toList "||".toList e 0
  let e := replaceAll "NOT".toList "!".toList e 0
  let e := values.foldl (fun e p => replaceAll (var p.1) (if p.2 then "true".toList else "false".toList) e 0) e
  match push (words e []) [] [] with
  | none => some false
  | some (v, o) => (apply o v).bind fun v => v.head?

/-! ### Specification -/

/-- Formulas whose operators bind everything to their right. -/
inductive Formula
  | v (i : Nat)
  | and (i : Nat) (f : Formula)
  | or (i : Nat) (f : Formula)
  | not (f : Formula)

/-- The value of a formula. -/
def Formula.eval (val : Nat → Bool) : Formula → Bool
  | .v i => val i
  | .and i f => val i && f.eval val
  | .or i f => val i || f.eval val
  | .not f => !f.eval val

/-- The words of a formula. -/
def Formula.words : Formula → List Str
  | .v i => [var i]
  | .and i f => var i :: "AND".toList :: f.words
  | .or i f => var i :: "OR".toList :: f.words
  | .not f => "NOT".toList :: f.words

/-- The text of a formula: its words, separated by single spaces. -/
def text : List Str → Str
  | [] => []
  | [w] => w
  | w :: ws => w ++ ' ' :: text ws

/-- All variables of the formula satisfy `p`. -/
def Formula.Vars (p : Nat → Prop) : Formula → Prop
  | .v i => p i
  | .and i f => p i ∧ f.Vars p
  | .or i f => p i ∧ f.Vars p
  | .not f => f.Vars p

/-! ### Proofs -/

theorem prefix_space (pat s r : Str) (hp : ' ' ∉ pat) : pat.isPrefixOf (s ++ ' ' :: r) = pat.isPrefixOf s := by
  induction pat generalizing s with
  | nil => simp
  | cons c pat ih =>
    cases s with
    | nil =>
      have : c ≠ ' ' := fun h => hp (by rw [h]; exact List.mem_cons_self)
      simp [List.isPrefixOf, this]
    | cons d s =>
      simp only [List.cons_append, List.isPrefixOf]
      rw [ih s (fun h => hp (List.mem_cons_of_mem _ h))]

theorem replaceAll_space (pat rep s r : Str) (hp : ' ' ∉ pat) (h0 : pat ≠ []) (k : Nat) (hk : k ≤ s.length) :
    replaceAll pat rep (s ++ ' ' :: r) k = replaceAll pat rep s k ++ ' ' :: replaceAll pat rep r 0 := by
  induction s generalizing k with
  | nil =>
    have : k = 0 := by simpa using hk
    subst this
    have hf : pat.isPrefixOf (' ' :: r) = false := by
      have := prefix_space pat [] r hp
      simp only [List.nil_append] at this
      rw [this]
      cases pat with
      | nil => exact absurd rfl h0
      | cons => rfl
    simp [replaceAll, hf]
  | cons c s ih =>
    cases k with
    | succ k => simp only [List.cons_append, replaceAll]; exact ih k (by simpa using hk)
    | zero =>
      simp only [List.cons_append, replaceAll]
      have he : pat.isPrefixOf (c :: (s ++ ' ' :: r)) = pat.isPrefixOf (c :: s) := prefix_space pat (c :: s) r hp
      rw [he]
      split_ifs with h
      · have hl : pat.length ≤ (c :: s).length := (List.isPrefixOf_iff_prefix.mp h).length_le
        rw [ih _ (by simp only [List.length_cons] at hl; omega), List.append_assoc]
      · rw [ih 0 (Nat.zero_le _), List.cons_append]

theorem replaceAll_text (pat rep : Str) (hp : ' ' ∉ pat) (h0 : pat ≠ []) (ws : List Str) :
    replaceAll pat rep (text ws) 0 = text (ws.map fun w => replaceAll pat rep w 0) := by
  induction ws with
  | nil => rfl
  | cons w ws ih =>
    cases ws with
    | nil => rfl
    | cons w' ws =>
      simp only [text, List.map_cons] at ih ⊢
      rw [replaceAll_space _ _ _ _ hp h0 _ (Nat.zero_le _), ih]

theorem words_word (w : Str) (hw : ∀ c ∈ w, isSpace c = false) (acc r : Str) (ha : w = [] → acc ≠ []) :
    words (w ++ ' ' :: r) acc = (acc ++ w) :: words r [] ∧ words w acc = [acc ++ w] := by
  induction w generalizing acc with
  | nil =>
    have := ha rfl
    constructor
    · simp [words, isSpace, this]
    · simp [words, this]
  | cons c w ih =>
    have hc := hw c List.mem_cons_self
    simp only [List.cons_append, words, hc, Bool.false_eq_true, if_false]
    have := ih (fun d hd => hw d (List.mem_cons_of_mem _ hd)) (acc ++ [c]) (fun _ => by simp)
    simpa using this

theorem words_text (ws : List Str) (h : ∀ w ∈ ws, w ≠ [] ∧ ∀ c ∈ w, isSpace c = false) : words (text ws) [] = ws := by
  induction ws with
  | nil => rfl
  | cons w ws ih =>
    obtain ⟨h1, h2⟩ := h w List.mem_cons_self
    cases ws with
    | nil =>
      have := (words_word w h2 [] [] (fun h => absurd h h1)).2
      simpa [text] using this
    | cons w' ws =>
      have := (words_word w h2 [] (text (w' :: ws)) (fun h => absurd h h1)).1
      simp only [text, List.nil_append] at this ⊢
      rw [this, ih (fun w hw => h w (List.mem_cons_of_mem _ hw))]

/-- The words during evaluation: operators and variables, the known variables replaced. -/
def Formula.mid (val : Nat → Option Bool) : Formula → List Str
  | .v i => [sub i]
  | .and i f => sub i :: "&&".toList :: f.mid val
  | .or i f => sub i :: "||".toList :: f.mid val
  | .not f => "!".toList :: f.mid val
where sub (i : Nat) : Str := match val i with
  | none => var i
  | some true => "true".toList
  | some false => "false".toList

theorem small (i : Nat) (h : 2 ≤ i ∧ i ≤ 9) : i ∈ [2, 3, 4, 5, 6, 7, 8, 9] := by
  simp only [List.mem_cons, List.not_mem_nil, or_false]; omega

theorem ops_replaced : ∀ i ∈ [2, 3, 4, 5, 6, 7, 8, 9],
    replaceAll "NOT".toList "!".toList (replaceAll "OR".toList "||".toList (replaceAll "AND".toList "&&".toList (var i) 0) 0) 0 = var i := by decide

theorem vars_replaced : ∀ i ∈ [2, 3, 4, 5, 6, 7, 8, 9], ∀ b : Bool, ' ' ∉ var i ∧ var i ≠ [] ∧
    (∀ w ∈ ["true".toList, "false".toList, "&&".toList, "||".toList, "!".toList], replaceAll (var i) (if b then "true".toList else "false".toList) w 0 = w) ∧
    ∀ j ∈ [2, 3, 4, 5, 6, 7, 8, 9], replaceAll (var i) (if b then "true".toList else "false".toList) (var j) 0 =
      if j = i then (if b then "true".toList else "false".toList) else var j := by decide

theorem mid_ops (f : Formula) (hf : f.Vars fun i => 2 ≤ i ∧ i ≤ 9) :
    f.words.map (fun w => replaceAll "NOT".toList "!".toList (replaceAll "OR".toList "||".toList (replaceAll "AND".toList "&&".toList w 0) 0) 0) =
      f.mid fun _ => none := by
  induction f with
  | v i => simp only [Formula.words, Formula.mid, Formula.mid.sub, List.map_cons, List.map_nil, ops_replaced i (small i hf)]
  | and i f ih =>
    simp only [Formula.words, Formula.mid, Formula.mid.sub, List.map_cons, ops_replaced i (small i hf.1), ih hf.2]
    congr 2
  | or i f ih =>
    simp only [Formula.words, Formula.mid, Formula.mid.sub, List.map_cons, ops_replaced i (small i hf.1), ih hf.2]
    congr 2
  | not f ih =>
    simp only [Formula.words, Formula.mid, List.map_cons, ih hf]
    congr 1

theorem mid_step (f : Formula) (hf : f.Vars fun i => 2 ≤ i ∧ i ≤ 9) (val : Nat → Option Bool) (i : Nat) (hi : 2 ≤ i ∧ i ≤ 9) (b : Bool) (hn : val i = none) :
    (f.mid val).map (fun w => replaceAll (var i) (if b then "true".toList else "false".toList) w 0) = f.mid fun j => if j = i then some b else val j := by
  obtain ⟨-, -, h1, h2⟩ := vars_replaced i (small i hi) b
  have hs : ∀ j, 2 ≤ j ∧ j ≤ 9 → replaceAll (var i) (if b then "true".toList else "false".toList) (Formula.mid.sub val j) 0 =
      Formula.mid.sub (fun j => if j = i then some b else val j) j := by
    intro j hj
    unfold Formula.mid.sub
    by_cases hji : j = i
    · subst hji
      rw [hn]
      simp only [if_true]
      rw [h2 j (small j hj), if_pos rfl]
      cases b <;> rfl
    · simp only [if_neg hji]
      cases hv : val j with
      | none => simp only; rw [h2 j (small j hj), if_neg hji]
      | some c =>
        cases c
        · exact h1 _ (by simp)
        · exact h1 _ (by simp)
  induction f with
  | v j => simp only [Formula.mid, List.map_cons, List.map_nil, hs j hf]
  | and j f ih =>
    simp only [Formula.mid, List.map_cons, hs j hf.1, ih hf.2]
    rw [h1 _ (by simp)]
  | or j f ih =>
    simp only [Formula.mid, List.map_cons, hs j hf.1, ih hf.2]
    rw [h1 _ (by simp)]
  | not f ih =>
    simp only [Formula.mid, List.map_cons, ih hf]
    rw [h1 _ (by simp)]

theorem mid_fold (f : Formula) (hf : f.Vars fun i => 2 ≤ i ∧ i ≤ 9) (values : List (Nat × Bool)) (hr : ∀ p ∈ values, 2 ≤ p.1 ∧ p.1 ≤ 9)
    (hnd : (values.map Prod.fst).Nodup) (val : Nat → Option Bool) (hv : ∀ p ∈ values, val p.1 = none) :
    values.foldl (fun e p => replaceAll (var p.1) (if p.2 then "true".toList else "false".toList) e 0) (text (f.mid val)) =
      text (f.mid fun j => (values.lookup j).or (val j)) := by
  induction values generalizing val with
  | nil => simp
  | cons p values ih =>
    obtain ⟨i, b⟩ := p
    have hi := hr _ List.mem_cons_self
    obtain ⟨v1, v2, -⟩ := vars_replaced i (small i hi) b
    simp only [List.map_cons, List.nodup_cons] at hnd
    rw [List.foldl_cons]
    simp only
    rw [replaceAll_text _ _ v1 v2, mid_step f hf val i hi b (hv _ List.mem_cons_self)]
    rw [ih (fun p hp => hr p (List.mem_cons_of_mem _ hp)) hnd.2]
    · congr 2
      funext j
      rw [List.lookup_cons]
      by_cases h : j = i
      · subst h
        have : values.lookup j = none := by
          rw [List.lookup_eq_none_iff]
          intro q hq
          have : q.1 ≠ j := fun h => hnd.1 (List.mem_map.mpr ⟨q, hq, h⟩)
          simp [Ne.symm this]
        simp [this]
      · have : (j == i) = false := by simpa using h
        simp [this, h]
    · intro q hq
      have : q.1 ≠ i := fun h => hnd.1 (List.mem_map.mpr ⟨q, hq, h⟩)
      simp only [if_neg this]
      exact hv q (List.mem_cons_of_mem _ hq)

/-- The stacks of a formula. -/
def Formula.operands (val : Nat → Bool) : Formula → List Bool
  | .v i => [val i]
  | .and i f => val i :: f.operands val
  | .or i f => val i :: f.operands val
  | .not f => f.operands val

def Formula.ops : Formula → List Op
  | .v _ => []
  | .and _ f => .and :: f.ops
  | .or _ f => .or :: f.ops
  | .not f => .not :: f.ops

theorem push_bool (b : Bool) (ts : List Str) (v : List Bool) (o : List Op) :
    push ((match some b with | none => [] | some true => "true".toList | some false => "false".toList) :: ts) v o = push ts (b :: v) o := by
  cases b
  · rw [push, if_neg (by decide), if_pos rfl]
  · rw [push, if_pos rfl]

theorem push_mid (f : Formula) (val : Nat → Bool) (v : List Bool) (o : List Op) :
    push (f.mid fun i => some (val i)) v o = some ((f.operands val).reverse ++ v, f.ops.reverse ++ o) := by
  have hs : ∀ i ts v o, push (Formula.mid.sub (fun i => some (val i)) i :: ts) v o = push ts (val i :: v) o := by
    intro i ts v o
    have : Formula.mid.sub (fun i => some (val i)) i = (match some (val i) with | none => [] | some true => "true".toList | some false => "false".toList) := by
      unfold Formula.mid.sub
      dsimp only
      cases val i <;> rfl
    rw [this, push_bool]
  induction f generalizing v o with
  | v i => simp only [Formula.mid, hs]; simp [push, Formula.operands, Formula.ops]
  | and i f ih =>
    simp only [Formula.mid, hs]
    rw [push, if_neg (by decide), if_neg (by decide), if_pos rfl, ih]
    simp [Formula.operands, Formula.ops]
  | or i f ih =>
    simp only [Formula.mid, hs]
    rw [push, if_neg (by decide), if_neg (by decide), if_neg (by decide), if_pos rfl, ih]
    simp [Formula.operands, Formula.ops]
  | not f ih =>
    simp only [Formula.mid]
    rw [push, if_neg (by decide), if_neg (by decide), if_neg (by decide), if_neg (by decide), if_pos rfl, ih]
    simp [Formula.operands, Formula.ops]

theorem apply_mid (f : Formula) (val : Nat → Bool) (v : List Bool) (o : List Op) :
    apply (f.ops.reverse ++ o) ((f.operands val).reverse ++ v) = apply o (f.eval val :: v) := by
  induction f generalizing v o with
  | v i => simp [Formula.ops, Formula.operands, Formula.eval]
  | and i f ih =>
    simp only [Formula.ops, Formula.operands, List.reverse_cons, List.append_assoc, List.singleton_append]
    rw [ih]
    simp [apply, Formula.eval]
  | or i f ih =>
    simp only [Formula.ops, Formula.operands, List.reverse_cons, List.append_assoc, List.singleton_append]
    rw [ih]
    simp [apply, Formula.eval]
  | not f ih =>
    simp only [Formula.ops, Formula.operands, List.reverse_cons, List.append_assoc, List.singleton_append]
    rw [ih]
    simp [apply, Formula.eval]

theorem mid_congr (f : Formula) (a b : Nat → Option Bool) (h : f.Vars fun i => a i = b i) : f.mid a = f.mid b := by
  induction f with
  | v i => simp only [Formula.mid, Formula.mid.sub]; rw [show a i = b i from h]
  | and i f ih => simp only [Formula.mid, Formula.mid.sub]; rw [h.1, ih h.2]
  | or i f ih => simp only [Formula.mid, Formula.mid.sub]; rw [h.1, ih h.2]
  | not f ih => simp only [Formula.mid]; rw [ih h]

theorem Formula.Vars.imp {p q : Nat → Prop} (h : ∀ i, p i → q i) (f : Formula) (hf : f.Vars p) : f.Vars q := by
  induction f with
  | v i => exact h i hf
  | and i f ih => exact ⟨h i hf.1, ih hf.2⟩
  | or i f ih => exact ⟨h i hf.1, ih hf.2⟩
  | not f ih => exact ih hf

theorem eval_congr (f : Formula) (a b : Nat → Bool) (h : f.Vars fun i => a i = b i) : f.eval a = f.eval b := by
  induction f with
  | v i => exact h
  | and i f ih => simp only [Formula.eval]; rw [h.1, ih h.2]
  | or i f ih => simp only [Formula.eval]; rw [h.1, ih h.2]
  | not f ih => simp only [Formula.eval]; rw [ih h]

theorem mid_words_ok (f : Formula) (val : Nat → Bool) : ∀ w ∈ f.mid (fun i => some (val i)), w ≠ [] ∧ ∀ c ∈ w, isSpace c = false := by
  have hall : ∀ w ∈ ["true".toList, "false".toList, "&&".toList, "||".toList, "!".toList], w ≠ [] ∧ ∀ c ∈ w, isSpace c = false := by decide
  have hs : ∀ i, Formula.mid.sub (fun i => some (val i)) i ∈ ["true".toList, "false".toList, "&&".toList, "||".toList, "!".toList] := by
    intro i
    unfold Formula.mid.sub
    dsimp only
    cases val i <;> simp
  induction f with
  | v i =>
    intro w hw
    simp only [Formula.mid, List.mem_singleton] at hw
    subst hw
    exact hall _ (hs i)
  | and i f ih =>
    intro w hw
    simp only [Formula.mid, List.mem_cons] at hw
    rcases hw with rfl | rfl | hw
    · exact hall _ (hs i)
    · exact hall _ (by simp)
    · exact ih w hw
  | or i f ih =>
    intro w hw
    simp only [Formula.mid, List.mem_cons] at hw
    rcases hw with rfl | rfl | hw
    · exact hall _ (hs i)
    · exact hall _ (by simp)
    · exact ih w hw
  | not f ih =>
    intro w hw
    simp only [Formula.mid, List.mem_cons] at hw
    rcases hw with rfl | hw
    · exact hall _ (by simp)
    · exact ih w hw

/-- C106. Expressions over the variables v2 to v9: for every iteration order of the map, the evaluator reads each operator as applying to everything on its right, and
returns the value of the formula read that way. Missing: the usual precedence (false of the code, see below), parentheses, and more than nine keywords. -/
theorem C106_evaluate_partial (f : Formula) (values : List (Nat × Bool)) (val : Nat → Bool) (hr : ∀ p ∈ values, 2 ≤ p.1 ∧ p.1 ≤ 9)
    (hnd : (values.map Prod.fst).Nodup) (hf : f.Vars fun i => (i, val i) ∈ values) :
    evaluate (text f.words) values = some (f.eval val) := by
  have hf' : f.Vars fun i => 2 ≤ i ∧ i ≤ 9 := hf.imp fun i h => hr _ h
  unfold evaluate
  simp only
  rw [replaceAll_text _ _ (by decide) (by decide), replaceAll_text _ _ (by decide) (by decide), replaceAll_text _ _ (by decide) (by decide), List.map_map, List.map_map]
  have h1 := mid_ops f hf'
  simp only [Function.comp_def]
  rw [h1, mid_fold f hf' values hr hnd _ (fun _ _ => rfl)]
  have hl : ∀ i, (i, val i) ∈ values → values.lookup i = some (val i) := by
    intro i hi
    clear hf hf' h1 hr
    induction values with
    | nil => cases hi
    | cons p values ih =>
      obtain ⟨j, b⟩ := p
      simp only [List.map_cons, List.nodup_cons] at hnd
      rw [List.lookup_cons]
      rcases List.mem_cons.mp hi with h | h
      · cases h; simp
      · have : i ≠ j := by rintro rfl; exact hnd.1 (List.mem_map.mpr ⟨_, h, rfl⟩)
        have : (i == j) = false := by simpa using this
        rw [this]
        exact ih hnd.2 h
  rw [mid_congr f _ (fun i => some (val i)) (hf.imp fun i h => by simp only [hl i h, Option.some_or])]
  rw [words_text _ (mid_words_ok f val), push_mid]
  simp only [List.append_nil]
  have := apply_mid f val [] []
  simp only [List.append_nil] at this
  rw [this]
  rfl

/-- C106. Conjunctions and disjunctions of any length are evaluated as a user expects. -/
theorem C106_chains_partial (i : Nat) (is : List Nat) (values : List (Nat × Bool)) (val : Nat → Bool) (hr : ∀ p ∈ values, 2 ≤ p.1 ∧ p.1 ≤ 9)
    (hnd : (values.map Prod.fst).Nodup) (hall : ∀ j ∈ i :: is, (j, val j) ∈ values) :
    evaluate (text (var i :: is.flatMap fun j => ["AND".toList, var j])) values = some ((i :: is).all val) ∧
    evaluate (text (var i :: is.flatMap fun j => ["OR".toList, var j])) values = some ((i :: is).any val) := by
  have h1 : ∀ i is, (∀ j ∈ i :: is, (j, val j) ∈ values) → ∃ f : Formula, f.words = (var i :: is.flatMap fun j => ["AND".toList, var j]) ∧
      f.eval val = (i :: is).all val ∧ f.Vars fun i => (i, val i) ∈ values := by
    intro i is
    induction is generalizing i with
    | nil => intro h; exact ⟨.v i, rfl, by simp [Formula.eval], h i List.mem_cons_self⟩
    | cons j js ih =>
      intro h
      obtain ⟨f, e1, e2, e3⟩ := ih j (fun k hk => h k (List.mem_cons_of_mem _ hk))
      exact ⟨.and i f, by simp [Formula.words, e1], by simp [Formula.eval, e2], h i List.mem_cons_self, e3⟩
  have h2 : ∀ i is, (∀ j ∈ i :: is, (j, val j) ∈ values) → ∃ f : Formula, f.words = (var i :: is.flatMap fun j => ["OR".toList, var j]) ∧
      f.eval val = (i :: is).any val ∧ f.Vars fun i => (i, val i) ∈ values := by
    intro i is
    induction is generalizing i with
    | nil => intro h; exact ⟨.v i, rfl, by simp [Formula.eval], h i List.mem_cons_self⟩
    | cons j js ih =>
      intro h
      obtain ⟨f, e1, e2, e3⟩ := ih j (fun k hk => h k (List.mem_cons_of_mem _ hk))
      exact ⟨.or i f, by simp [Formula.words, e1], by simp [Formula.eval, e2], h i List.mem_cons_self, e3⟩
  obtain ⟨f, e1, e2, e3⟩ := h1 i is hall
  obtain ⟨g, g1, g2, g3⟩ := h2 i is hall
  rw [← e1, ← g1, ← e2, ← g2]
  exact ⟨C106_evaluate_partial f values val hr hnd e3, C106_evaluate_partial g values val hr hnd g3⟩

/-- C106, violated: AND does not bind tighter than OR, and NOT applies to all that follows. -/
theorem C106_precedence_violated :
    evaluate "v2 AND v3 OR v4".toList [(2, false), (3, true), (4, true)] = some false ∧ ((false && true) || true) = true ∧
    evaluate "NOT v2 AND v3".toList [(2, true), (3, false)] = some true ∧ ((!true) && false) = false := by decide

/-- C106, violated: with twenty keywords the result depends on the iteration order of the map: `v2` is also replaced inside `v20`. -/
theorem C106_order_violated :
    evaluate "v20".toList [(2, true), (20, true)] = some false ∧ evaluate "v20".toList [(20, true), (2, true)] = some true := by decide

/-- C106, violated: parentheses are refused (the result is false), and an operator without operands reads an empty stack. -/
theorem C106_syntax_violated : evaluate "( v2 )".toList [(2, true)] = some false ∧ evaluate "v2 AND".toList [(2, true)] = none ∧
    evaluate "NOT".toList [(2, true)] = none := by decide

/-- The formula of the unit test, in both orders of the map. -/
example : evaluate "v2 OR v3 AND NOT v4".toList [(3, true), (4, false), (2, false)] = some true :=
  C106_evaluate_partial (.or 2 (.and 3 (.not (.v 4)))) _ (fun i => i = 3) (by decide) (by decide) ⟨by decide, by decide, by simp [Formula.Vars]⟩

end Yacl.Sse
