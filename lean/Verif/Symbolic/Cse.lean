import Verif.Symbolic.Simplify

/-!
# C51: elimination of common subexpressions (expression.tpl.hpp 491-615)

Sharing is only visible through the addresses of nodes, so here every node has an address.
-/

noncomputable section

open Classical

namespace Ariadne.Symbolic

open Expr

variable {V : Type*} [LinearOrder V]

/-- An expression with the addresses of its nodes. -/
inductive PExpr (V : Type*)
  | const (p : ℕ) (name : WithBot V) (c : ℝ)
  | var (p : ℕ) (v : V)
  | un (p : ℕ) (op : UnOp) (a : PExpr V)
  | bin (p : ℕ) (op : BinOp) (a b : PExpr V)
  | pow (p : ℕ) (a : PExpr V) (n : ℤ)

/-- `OperatorCode` (operators.hpp 97-150) -/
def UnOp.code : UnOp → ℕ
  | .nul => 10 | .pos => 11 | .neg => 12 | .hlf => 13 | .recip => 14 | .sqr => 15 | .sqrt => 16 | .exp => 17
  | .log => 18 | .sin => 19 | .cos => 20 | .tan => 21 | .asin => 22 | .acos => 23 | .atan => 24 | .abs => 30
@[inherit_doc UnOp.code]
def BinOp.code : BinOp → ℕ
  | .add => 3 | .sub => 4 | .mul => 5 | .div => 6 | .max => 31 | .min => 32

omit [LinearOrder V] in
theorem UnOp.code_inj {a b : UnOp} (h : a.code = b.code) : a = b := by
  cases a <;> cases b <;> simp [UnOp.code] at h <;> rfl
theorem BinOp.code_inj {a b : BinOp} (h : a.code = b.code) : a = b := by
  cases a <;> cases b <;> simp [BinOp.code] at h <;> rfl

namespace PExpr

/-- `node_raw_ptr` -/
def addr : PExpr V → ℕ
  | const p _ _ => p
  | var p _ => p
  | un p _ _ => p
  | bin p _ _ _ => p
  | pow p _ _ => p

/-- The expression without addresses. -/
def erase : PExpr V → Expr V
  | const _ n c => .const n c
  | var _ v => .var v
  | un _ op a => .un op a.erase
  | bin _ op a b => .bin op a.erase b.erase
  | pow _ a n => .pow a.erase n

/-- All nodes of an expression. -/
def nodes : PExpr V → Set (PExpr V)
  | const p n c => {const p n c}
  | var p v => {var p v}
  | un p op a => insert (un p op a) a.nodes
  | bin p op a b => insert (bin p op a b) (a.nodes ∪ b.nodes)
  | pow p a n => insert (pow p a n) a.nodes

/-- Decisions on constants: `lt a b` is `decide(a<b)` (expression.tpl.hpp 491), `same` is
`same(Real,Real)` (real.cpp 374-380), which only holds for equal constants which are
represented exactly in double precision. -/
structure Decide where
  lt : ℝ → ℝ → Bool
  same : ℝ → ℝ → Bool

/-- `identical` (expression.tpl.hpp 413-418, templates.tpl.hpp 370-384) -/
def identical (o : Decide) : PExpr V → PExpr V → Bool
  | const p n c, const q m d => p == q || (n == m && o.same c d)
  | var p v, var q w => p == q || v == w
  | un p op a, un q op' a' => p == q || (op == op' && identical o a a')
  | bin p op a b, bin q op' a' b' => p == q || (op == op' && identical o a a' && identical o b b')
  | pow p a n, pow q a' n' => p == q || (identical o a a' && n == n')
  | a, b => a.addr == b.addr

/-- `node_ref().index()`: the position in `ExpressionVariantTypedef<Real>` (112-119) -/
def index : PExpr V → ℕ
  | const _ _ _ => 0
  | var _ _ => 1
  | un _ _ _ => 2
  | bin _ _ _ _ => 3
  | pow _ _ _ => 4

/-- `before` (expression.tpl.hpp 506-540) -/
def before (o : Decide) : PExpr V → PExpr V → Bool
  | const _ n c, const _ m d => if n = m then o.lt c d else decide (n < m)
  | var _ v, var _ w => decide (v < w)
  | un _ op a, un _ op' a' => if op.code = op'.code then before o a a' else decide (op.code < op'.code)
  | bin _ op a b, bin _ op' a' b' =>
    if op.code = op'.code then (if identical o a a' then before o b b' else before o a a')
    else decide (op.code < op'.code)
  | pow _ a n, pow _ a' n' => if n = n' then before o a a' else decide (n < n')
  | a, b => decide (a.index < b.index)

/-- Equivalence of keys in a `std::set` -/
def equiv (o : Decide) (a b : PExpr V) : Bool := !before o a b && !before o b a

/-- The cache (553) and the next free address.  The set is a list searched for an equivalent
element; this is what `std::set` does if `before` is a strict weak ordering. -/
structure Cse (V : Type*) where
  cache : List (PExpr V)
  next : ℕ

/-- `_cache.insert(e)` -/
def insertC (o : Decide) (e : PExpr V) (st : Cse V) : Cse V :=
  if st.cache.any (equiv o e) then st else { st with cache := e :: st.cache }

/-- `eliminate_common_subexpressions` (552-604) -/
def elim (o : Decide) : PExpr V → Cse V → PExpr V × Cse V
  | const p n c, st => match st.cache.find? (equiv o (const p n c)) with
    | some r => (r, st)
    | none => (const p n c, insertC o (const p n c) st)
  | var p v, st => match st.cache.find? (equiv o (var p v)) with
    | some r => (r, st)
    | none => (var p v, insertC o (var p v) st)
  | un p op a, st => match st.cache.find? (equiv o (un p op a)) with
    | some r => (r, st)
    | none =>
      let (a', st1) := elim o a st
      if a'.addr = a.addr then (un p op a, insertC o (un p op a) st1)
      else (un st1.next op a', insertC o (un st1.next op a') { st1 with next := st1.next + 1 })
  | bin p op a b, st => match st.cache.find? (equiv o (bin p op a b)) with
    | some r => (r, st)
    | none =>
      let (a', st1) := elim o a st
      let (b', st2) := elim o b st1
      if a'.addr = a.addr ∧ b'.addr = b.addr then (bin p op a b, insertC o (bin p op a b) st2)
      else (bin st2.next op a' b', insertC o (bin st2.next op a' b') { st2 with next := st2.next + 1 })
  | pow p a n, st => match st.cache.find? (equiv o (pow p a n)) with
    | some r => (r, st)
    | none =>
      let (a', st1) := elim o a st
      if a'.addr = a.addr then (pow p a n, insertC o (pow p a n) st1)
      else (pow st1.next a' n, insertC o (pow st1.next a' n) { st1 with next := st1.next + 1 })

/-- `eliminate_common_subexpressions(Vector<Expression<T>>&)` (611-615) -/
def elimList (o : Decide) : List (PExpr V) → Cse V → List (PExpr V) × Cse V
  | [], st => ([], st)
  | e :: es, st =>
    let (r, st1) := elim o e st
    let (rs, st2) := elimList o es st1
    (r :: rs, st2)

end PExpr

open PExpr

/-! ## The ordering -/

/-- spec: a total order on expressions. -/
def Expr.Lt : Expr V → Expr V → Prop
  | .const n c, .const m d => n < m ∨ (n = m ∧ c < d)
  | .var v, .var w => v < w
  | .un op a, .un op' a' => op.code < op'.code ∨ (op = op' ∧ Expr.Lt a a')
  | .bin op a b, .bin op' a' b' => op.code < op'.code ∨ (op = op' ∧ (Expr.Lt a a' ∨ (a = a' ∧ Expr.Lt b b')))
  | .pow a n, .pow a' n' => n < n' ∨ (n = n' ∧ Expr.Lt a a')
  | .const _ _, .var _ => True
  | .const _ _, .un _ _ => True
  | .const _ _, .bin _ _ _ => True
  | .const _ _, .pow _ _ => True
  | .var _, .un _ _ => True
  | .var _, .bin _ _ _ => True
  | .var _, .pow _ _ => True
  | .un _ _, .bin _ _ _ => True
  | .un _ _, .pow _ _ => True
  | .bin _ _ _, .pow _ _ => True
  | _, _ => False

theorem Expr.Lt.irrefl (a : Expr V) : ¬ Expr.Lt a a := by
  induction a with
  | const n c => simp [Expr.Lt]
  | var v => simp [Expr.Lt]
  | un op a ih => simpa [Expr.Lt] using ih
  | bin op a b iha ihb => simp [Expr.Lt, iha, ihb]
  | pow a n ih => simpa [Expr.Lt] using ih

theorem Expr.Lt.trans {a b c : Expr V} (h1 : Expr.Lt a b) (h2 : Expr.Lt b c) : Expr.Lt a c := by
  induction a generalizing b c with
  | const n x =>
    cases b <;> cases c <;> simp only [Expr.Lt] at h1 h2 ⊢
    rcases h1 with h1 | ⟨rfl, h1⟩ <;> rcases h2 with h2 | ⟨rfl, h2⟩
    · exact Or.inl (h1.trans h2)
    · exact Or.inl h1
    · exact Or.inl h2
    · exact Or.inr ⟨rfl, h1.trans h2⟩
  | var v => cases b <;> cases c <;> simp only [Expr.Lt] at h1 h2 ⊢; exact h1.trans h2
  | un op a ih =>
    cases b <;> cases c <;> simp only [Expr.Lt] at h1 h2 ⊢
    rcases h1 with h1 | ⟨rfl, h1⟩ <;> rcases h2 with h2 | ⟨rfl, h2⟩
    · exact Or.inl (h1.trans h2)
    · exact Or.inl h1
    · exact Or.inl h2
    · exact Or.inr ⟨rfl, ih h1 h2⟩
  | bin op a a' iha iha' =>
    cases b <;> cases c <;> simp only [Expr.Lt] at h1 h2 ⊢
    rcases h1 with h1 | ⟨rfl, h1⟩ <;> rcases h2 with h2 | ⟨rfl, h2⟩
    · exact Or.inl (h1.trans h2)
    · exact Or.inl h1
    · exact Or.inl h2
    · refine Or.inr ⟨rfl, ?_⟩
      rcases h1 with h1 | ⟨rfl, h1⟩ <;> rcases h2 with h2 | ⟨rfl, h2⟩
      · exact Or.inl (iha h1 h2)
      · exact Or.inl h1
      · exact Or.inl h2
      · exact Or.inr ⟨rfl, iha' h1 h2⟩
  | pow a n ih =>
    cases b <;> cases c <;> simp only [Expr.Lt] at h1 h2 ⊢
    rcases h1 with h1 | ⟨rfl, h1⟩ <;> rcases h2 with h2 | ⟨rfl, h2⟩
    · exact Or.inl (h1.trans h2)
    · exact Or.inl h1
    · exact Or.inl h2
    · exact Or.inr ⟨rfl, ih h1 h2⟩

theorem Expr.Lt.total {a b : Expr V} (h1 : ¬ Expr.Lt a b) (h2 : ¬ Expr.Lt b a) : a = b := by
  induction a generalizing b with
  | const n x =>
    cases b <;> simp only [Expr.Lt, not_true] at h1 h2
    rename_i m y
    rcases lt_trichotomy n m with h | h | h
    · exact absurd (Or.inl h) h1
    · subst h
      rcases lt_trichotomy x y with h' | h' | h'
      · exact absurd (Or.inr ⟨rfl, h'⟩) h1
      · rw [h']
      · exact absurd (Or.inr ⟨rfl, h'⟩) h2
    · exact absurd (Or.inl h) h2
  | var v =>
    cases b <;> simp only [Expr.Lt, not_true] at h1 h2
    rw [le_antisymm (not_lt.1 h2) (not_lt.1 h1)]
  | un op a ih =>
    cases b <;> simp only [Expr.Lt, not_true] at h1 h2
    rename_i op' a'
    have : op = op' := UnOp.code_inj (le_antisymm (not_lt.1 fun h => h2 (Or.inl h)) (not_lt.1 fun h => h1 (Or.inl h)))
    subst this
    rw [ih (fun h => h1 (Or.inr ⟨rfl, h⟩)) (fun h => h2 (Or.inr ⟨rfl, h⟩))]
  | bin op a c iha ihc =>
    cases b <;> simp only [Expr.Lt, not_true] at h1 h2
    rename_i op' a' c'
    have : op = op' := BinOp.code_inj (le_antisymm (not_lt.1 fun h => h2 (Or.inl h)) (not_lt.1 fun h => h1 (Or.inl h)))
    subst this
    have : a = a' := iha (fun h => h1 (Or.inr ⟨rfl, Or.inl h⟩)) (fun h => h2 (Or.inr ⟨rfl, Or.inl h⟩))
    subst this
    rw [ihc (fun h => h1 (Or.inr ⟨rfl, Or.inr ⟨rfl, h⟩⟩)) (fun h => h2 (Or.inr ⟨rfl, Or.inr ⟨rfl, h⟩⟩))]
  | pow a n ih =>
    cases b <;> simp only [Expr.Lt, not_true] at h1 h2
    rename_i a' n'
    have : n = n' := le_antisymm (not_lt.1 fun h => h2 (Or.inl h)) (not_lt.1 fun h => h1 (Or.inl h))
    subst this
    rw [ih (fun h => h1 (Or.inr ⟨rfl, h⟩)) (fun h => h2 (Or.inr ⟨rfl, h⟩))]

/-- Constants on which the comparisons are decided. -/
def PExpr.Decide.ExactOn (o : Decide) (S : Set ℝ) : Prop :=
  ∀ a ∈ S, ∀ b ∈ S, (o.lt a b = true ↔ a < b) ∧ (o.same a b = true ↔ a = b)

/-- All constants are in `S`. -/
def Expr.ConstIn (S : Set ℝ) : Expr V → Prop
  | .const _ c => c ∈ S
  | .var _ => True
  | .un _ a => a.ConstIn S
  | .bin _ a b => a.ConstIn S ∧ b.ConstIn S
  | .pow a _ => a.ConstIn S

omit [LinearOrder V] in
theorem self_mem_nodes (a : PExpr V) : a ∈ a.nodes := by cases a <;> simp [nodes]

omit [LinearOrder V] in
theorem nodes_sub {a b : PExpr V} (h : a ∈ b.nodes) : a.nodes ⊆ b.nodes := by
  induction b with
  | const p n c => simp only [nodes, Set.mem_singleton_iff] at h; subst h; exact fun _ h => h
  | var p v => simp only [nodes, Set.mem_singleton_iff] at h; subst h; exact fun _ h => h
  | un p op c ih =>
    simp only [nodes, Set.mem_insert_iff] at h
    rcases h with rfl | h
    · exact fun _ h => h
    · exact (ih h).trans (Set.subset_insert _ _)
  | bin p op c d ihc ihd =>
    simp only [nodes, Set.mem_insert_iff, Set.mem_union] at h
    rcases h with rfl | h | h
    · exact fun _ h => h
    · exact ((ihc h).trans Set.subset_union_left).trans (Set.subset_insert _ _)
    · exact ((ihd h).trans Set.subset_union_right).trans (Set.subset_insert _ _)
  | pow p c n ih =>
    simp only [nodes, Set.mem_insert_iff] at h
    rcases h with rfl | h
    · exact fun _ h => h
    · exact (ih h).trans (Set.subset_insert _ _)

/-- Different nodes have different addresses. -/
def Coherent (H : Set (PExpr V)) : Prop := ∀ a ∈ H, ∀ b ∈ H, a.addr = b.addr → a = b

theorem identical_iff {o : Decide} {S : Set ℝ} (ho : o.ExactOn S) {H : Set (PExpr V)} (hH : Coherent H)
    {a b : PExpr V} (ha : a.nodes ⊆ H) (hb : b.nodes ⊆ H) (ca : a.erase.ConstIn S) (cb : b.erase.ConstIn S) :
    PExpr.identical o a b = true ↔ a.erase = b.erase := by
  have hadd : a.addr = b.addr → a = b := hH _ (ha (self_mem_nodes a)) _ (hb (self_mem_nodes b))
  induction a generalizing b with
  | const p n c =>
    cases b <;> simp only [PExpr.identical, erase, addr, beq_iff_eq, Bool.or_eq_true, Bool.and_eq_true,
      reduceCtorEq, iff_false, Expr.const.injEq] at hadd ⊢ <;> try exact fun h => hadd h
    rename_i q m d
    rw [((ho c ca d cb).2)]
    exact ⟨fun h => h.elim (fun h => by have := hadd h; simp_all) id, Or.inr⟩
  | var p v =>
    cases b <;> simp only [PExpr.identical, erase, addr, beq_iff_eq, Bool.or_eq_true, Bool.and_eq_true,
      reduceCtorEq, iff_false, Expr.var.injEq] at hadd ⊢ <;> try exact fun h => hadd h
    exact ⟨fun h => h.elim (fun h => by have := hadd h; simp_all) id, Or.inr⟩
  | un p op a ih =>
    cases b <;> simp only [PExpr.identical, erase, addr, beq_iff_eq, Bool.or_eq_true, Bool.and_eq_true,
      reduceCtorEq, iff_false, Expr.un.injEq] at hadd ⊢ <;> try exact fun h => hadd h
    rename_i q op' a'
    have ha' : a.nodes ⊆ H := (Set.subset_insert _ _).trans ha
    have hb' : a'.nodes ⊆ H := (Set.subset_insert _ _).trans hb
    have e1 : PExpr.identical o a a' = true ↔ a.erase = a'.erase :=
      ih ha' hb' ca cb (hH _ (ha' (self_mem_nodes _)) _ (hb' (self_mem_nodes _)))
    rw [e1]
    exact ⟨fun h => h.elim (fun h => by have := hadd h; simp_all) id, Or.inr⟩
  | bin p op a c iha ihc =>
    cases b <;> simp only [PExpr.identical, erase, addr, beq_iff_eq, Bool.or_eq_true, Bool.and_eq_true,
      reduceCtorEq, iff_false, Expr.bin.injEq] at hadd ⊢ <;> try exact fun h => hadd h
    rename_i q op' a' c'
    have ha1 : a.nodes ⊆ H := (Set.subset_union_left.trans (Set.subset_insert _ _)).trans ha
    have ha2 : c.nodes ⊆ H := (Set.subset_union_right.trans (Set.subset_insert _ _)).trans ha
    have hb1 : a'.nodes ⊆ H := (Set.subset_union_left.trans (Set.subset_insert _ _)).trans hb
    have hb2 : c'.nodes ⊆ H := (Set.subset_union_right.trans (Set.subset_insert _ _)).trans hb
    have e1 : PExpr.identical o a a' = true ↔ a.erase = a'.erase :=
      iha ha1 hb1 ca.1 cb.1 (hH _ (ha1 (self_mem_nodes _)) _ (hb1 (self_mem_nodes _)))
    have e2 : PExpr.identical o c c' = true ↔ c.erase = c'.erase :=
      ihc ha2 hb2 ca.2 cb.2 (hH _ (ha2 (self_mem_nodes _)) _ (hb2 (self_mem_nodes _)))
    rw [e1, e2, and_assoc]
    exact ⟨fun h => h.elim (fun h => by have := hadd h; simp_all) id, Or.inr⟩
  | pow p a n ih =>
    cases b <;> simp only [PExpr.identical, erase, addr, beq_iff_eq, Bool.or_eq_true, Bool.and_eq_true,
      reduceCtorEq, iff_false, Expr.pow.injEq] at hadd ⊢ <;> try exact fun h => hadd h
    rename_i q a' n'
    have ha' : a.nodes ⊆ H := (Set.subset_insert _ _).trans ha
    have hb' : a'.nodes ⊆ H := (Set.subset_insert _ _).trans hb
    have e1 : PExpr.identical o a a' = true ↔ a.erase = a'.erase :=
      ih ha' hb' ca cb (hH _ (ha' (self_mem_nodes _)) _ (hb' (self_mem_nodes _)))
    rw [e1]
    exact ⟨fun h => h.elim (fun h => by have := hadd h; simp_all) id, Or.inr⟩

/-- C51: if the comparisons of constants are decided, `before` is the total order on
expressions; in particular it is a strict weak ordering, and expressions are only equivalent
if they are equal. -/
theorem C51_before {o : Decide} {S : Set ℝ} (ho : o.ExactOn S) {H : Set (PExpr V)} (hH : Coherent H)
    {a b : PExpr V} (ha : a.nodes ⊆ H) (hb : b.nodes ⊆ H) (ca : a.erase.ConstIn S) (cb : b.erase.ConstIn S) :
    before o a b = true ↔ Expr.Lt a.erase b.erase := by
  induction a generalizing b with
  | const p n c =>
    cases b <;> simp only [before, erase, Expr.Lt, index] <;> try simp
    rename_i q m d
    by_cases h : n = m
    · subst h; simp [(ho c ca d cb).1]
    · simp [h]
  | var p v => cases b <;> simp [before, erase, Expr.Lt, index]
  | un p op a ih =>
    cases b <;> simp only [before, erase, Expr.Lt, index] <;> try simp
    rename_i q op' a'
    have ha' : a.nodes ⊆ H := (Set.subset_insert _ _).trans ha
    have hb' : a'.nodes ⊆ H := (Set.subset_insert _ _).trans hb
    by_cases h : op.code = op'.code
    · have := UnOp.code_inj h
      subst this
      simp [ih ha' hb' ca cb]
    · have : op ≠ op' := fun e => h (by rw [e])
      simp [h, this]
  | bin p op a c iha ihc =>
    cases b <;> simp only [before, erase, Expr.Lt, index] <;> try simp
    rename_i q op' a' c'
    have ha1 : a.nodes ⊆ H := (Set.subset_union_left.trans (Set.subset_insert _ _)).trans ha
    have ha2 : c.nodes ⊆ H := (Set.subset_union_right.trans (Set.subset_insert _ _)).trans ha
    have hb1 : a'.nodes ⊆ H := (Set.subset_union_left.trans (Set.subset_insert _ _)).trans hb
    have hb2 : c'.nodes ⊆ H := (Set.subset_union_right.trans (Set.subset_insert _ _)).trans hb
    by_cases h : op.code = op'.code
    · have := BinOp.code_inj h
      subst this
      have hi := identical_iff ho hH ha1 hb1 ca.1 cb.1
      by_cases h' : PExpr.identical o a a' = true
      · have e := hi.1 h'
        simp [h', ihc ha2 hb2 ca.2 cb.2, e, Expr.Lt.irrefl]
      · have e : a.erase ≠ a'.erase := fun e => h' (hi.2 e)
        simp [h', iha ha1 hb1 ca.1 cb.1, e]
    · have : op ≠ op' := fun e => h (by rw [e])
      simp [h, this]
  | pow p a n ih =>
    cases b <;> simp only [before, erase, Expr.Lt, index] <;> try simp
    rename_i q a' n'
    have ha' : a.nodes ⊆ H := (Set.subset_insert _ _).trans ha
    have hb' : a'.nodes ⊆ H := (Set.subset_insert _ _).trans hb
    by_cases h : n = n'
    · subst h
      simp [ih ha' hb' ca cb]
    · simp [h]

theorem equiv_iff {o : Decide} {S : Set ℝ} (ho : o.ExactOn S) {H : Set (PExpr V)} (hH : Coherent H)
    {a b : PExpr V} (ha : a.nodes ⊆ H) (hb : b.nodes ⊆ H) (ca : a.erase.ConstIn S) (cb : b.erase.ConstIn S) :
    equiv o a b = true ↔ a.erase = b.erase := by
  have h1 := C51_before ho hH ha hb ca cb
  have h2 := C51_before ho hH hb ha cb ca
  simp only [equiv, Bool.and_eq_true, Bool.not_eq_true', ← Bool.not_eq_true, h1, h2]
  exact ⟨fun h => Expr.Lt.total h.1 h.2, fun h => by rw [h]; exact ⟨Expr.Lt.irrefl _, Expr.Lt.irrefl _⟩⟩

/-! ## The eliminator -/

/-- Invariant: the cache contains the nodes of its elements, equal expressions only once, and
all nodes in use have different addresses below `next`. -/
structure CInv (S : Set ℝ) (G : Set (PExpr V)) (st : Cse V) : Prop where
  closed : ∀ c ∈ st.cache, ∀ d ∈ c.nodes, d ∈ st.cache
  inj : ∀ c ∈ st.cache, ∀ d ∈ st.cache, c.erase = d.erase → c = d
  coh : Coherent (G ∪ {c | c ∈ st.cache})
  fresh : ∀ c ∈ G ∪ {c | c ∈ st.cache}, c.addr < st.next
  gclosed : ∀ c ∈ G, c.nodes ⊆ G
  cst : ∀ c ∈ G ∪ {c | c ∈ st.cache}, c.erase.ConstIn S

theorem CInv.sub {S : Set ℝ} {G : Set (PExpr V)} {st : Cse V} (h : CInv S G st) {c : PExpr V}
    (hc : c ∈ G ∪ {c | c ∈ st.cache}) : c.nodes ⊆ G ∪ {c | c ∈ st.cache} := by
  rcases hc with hc | hc
  · exact (h.gclosed c hc).trans Set.subset_union_left
  · exact fun d hd => Or.inr (h.closed c hc d hd)

theorem CInv.equiv_iff {o : Decide} {S : Set ℝ} (ho : o.ExactOn S) {G : Set (PExpr V)} {st : Cse V} (h : CInv S G st)
    {a b : PExpr V} (ha : a ∈ G ∪ {c | c ∈ st.cache}) (hb : b ∈ G ∪ {c | c ∈ st.cache}) :
    equiv o a b = true ↔ a.erase = b.erase :=
  Symbolic.equiv_iff ho h.coh (h.sub ha) (h.sub hb) (h.cst a ha) (h.cst b hb)

theorem CInv.insert {o : Decide} {S : Set ℝ} (ho : o.ExactOn S) {G : Set (PExpr V)} {st : Cse V} (h : CInv S G st)
    {e : PExpr V} (hG : e ∈ G) (hn : ∀ d ∈ e.nodes, d = e ∨ d ∈ st.cache)
    (hne : ∀ c ∈ st.cache, c.erase ≠ e.erase) :
    CInv S G (insertC o e st) ∧ e ∈ (insertC o e st).cache ∧
      ∀ c, c ∈ (insertC o e st).cache ↔ c = e ∨ c ∈ st.cache := by
  have hin : insertC o e st = { st with cache := e :: st.cache } := by
    rw [insertC, if_neg]
    simp only [List.any_eq_true, not_exists, not_and]
    intro c hc heq
    exact hne c hc ((h.equiv_iff ho (Or.inl hG) (Or.inr hc)).1 heq).symm
  have hset : G ∪ {c | c ∈ e :: st.cache} = G ∪ {c | c ∈ st.cache} := by
    ext c
    simp only [Set.mem_union, Set.mem_setOf_eq, List.mem_cons]
    constructor
    · rintro (h | rfl | h)
      · exact Or.inl h
      · exact Or.inl hG
      · exact Or.inr h
    · rintro (h | h)
      · exact Or.inl h
      · exact Or.inr (Or.inr h)
  rw [hin]
  refine ⟨⟨?_, ?_, ?_, ?_, h.gclosed, ?_⟩, by simp, by simp⟩
  · intro c hc d hd
    simp only [List.mem_cons] at hc ⊢
    rcases hc with rfl | hc
    · exact hn d hd
    · exact Or.inr (h.closed c hc d hd)
  · intro c hc d hd hcd
    simp only [List.mem_cons] at hc hd
    rcases hc with rfl | hc <;> rcases hd with rfl | hd
    · rfl
    · exact absurd hcd.symm (hne d hd)
    · exact absurd hcd (hne c hc)
    · exact h.inj c hc d hd hcd
  · simp only [hset]; exact h.coh
  · simp only [hset]; exact h.fresh
  · simp only [hset]; exact h.cst

theorem CInv.insertNew {o : Decide} {S : Set ℝ} (ho : o.ExactOn S) {G : Set (PExpr V)} {st : Cse V} (h : CInv S G st)
    {e : PExpr V} (he : e.addr = st.next) (hcS : e.erase.ConstIn S)
    (hn : ∀ d ∈ e.nodes, d = e ∨ d ∈ st.cache) (hne : ∀ c ∈ st.cache, c.erase ≠ e.erase) :
    CInv S G (insertC o e { st with next := st.next + 1 }) ∧ e ∈ (insertC o e { st with next := st.next + 1 }).cache ∧
      ∀ c, c ∈ (insertC o e { st with next := st.next + 1 }).cache ↔ c = e ∨ c ∈ st.cache := by
  have hH : Coherent (Insert.insert e (G ∪ {c | c ∈ st.cache})) := by
    rintro a (rfl | ha) b (rfl | hb) hab
    · rfl
    · have := h.fresh b hb; omega
    · have := h.fresh a ha; omega
    · exact h.coh a ha b hb hab
  have hsub : e.nodes ⊆ Insert.insert e (G ∪ {c | c ∈ st.cache}) := by
    intro d hd
    rcases hn d hd with rfl | h
    · exact Or.inl rfl
    · exact Or.inr (Or.inr h)
  have hin : insertC o e { st with next := st.next + 1 } = ⟨e :: st.cache, st.next + 1⟩ := by
    rw [insertC, if_neg]
    simp only [List.any_eq_true, not_exists, not_and]
    intro c hc' heq
    have := (Symbolic.equiv_iff ho hH hsub ((h.sub (Or.inr hc')).trans (Set.subset_insert _ _)) hcS
      (h.cst c (Or.inr hc'))).1 heq
    exact hne c hc' this.symm
  have hset : G ∪ {c | c ∈ e :: st.cache} = Insert.insert e (G ∪ {c | c ∈ st.cache}) := by
    ext c
    simp only [Set.mem_union, Set.mem_setOf_eq, List.mem_cons, Set.mem_insert_iff]
    tauto
  rw [hin]
  refine ⟨⟨?_, ?_, ?_, ?_, h.gclosed, ?_⟩, by simp, by simp⟩
  · intro c hc d hd
    simp only [List.mem_cons] at hc ⊢
    rcases hc with rfl | hc
    · exact hn d hd
    · exact Or.inr (h.closed c hc d hd)
  · intro c hc d hd hcd
    simp only [List.mem_cons] at hc hd
    rcases hc with rfl | hc <;> rcases hd with rfl | hd
    · rfl
    · exact absurd hcd.symm (hne d hd)
    · exact absurd hcd (hne c hc)
    · exact h.inj c hc d hd hcd
  · simp only [hset]; exact hH
  · simp only [hset]
    rintro c (rfl | hc)
    · omega
    · have := h.fresh c hc; omega
  · simp only [hset]
    rintro c (rfl | hc')
    · exact hcS
    · exact h.cst c hc'

/-- The specification of one elimination. -/
structure ElimSpec (S : Set ℝ) (G : Set (PExpr V)) (e : PExpr V) (st : Cse V) (r : PExpr V) (st' : Cse V) : Prop where
  inv : CInv S G st'
  mem : r ∈ st'.cache
  val : r.erase = e.erase
  mono : ∀ c ∈ st.cache, c ∈ st'.cache
  small : ∀ c ∈ st'.cache, c ∈ st.cache ∨ size c.erase ≤ size e.erase

theorem elim_spec {o : Decide} {S : Set ℝ} (ho : o.ExactOn S) {G : Set (PExpr V)} (e : PExpr V) (st : Cse V)
    (h : CInv S G st) (hG : e ∈ G) : ElimSpec S G e st (elim o e st).1 (elim o e st).2 := by
  have found : ∀ {e : PExpr V} {st : Cse V} {r : PExpr V}, CInv S G st → e ∈ G → st.cache.find? (equiv o e) = some r →
      ElimSpec S G e st r st := by
    intro e st r h hG hf
    have hr := List.mem_of_find?_eq_some hf
    have he : equiv o e r = true := List.find?_some hf
    exact ⟨h, hr, ((h.equiv_iff ho (Or.inl hG) (Or.inr hr)).1 he).symm, fun _ h => h, fun _ h => Or.inl h⟩
  have notfound : ∀ {e : PExpr V} {st : Cse V}, CInv S G st → e ∈ G → st.cache.find? (equiv o e) = none →
      ∀ c ∈ st.cache, c.erase ≠ e.erase := by
    intro e st h hG hf c hc heq
    have := List.find?_eq_none.1 hf c hc
    exact this ((h.equiv_iff ho (Or.inl hG) (Or.inr hc)).2 heq.symm)
  induction e generalizing st with
  | const p n c =>
    simp only [elim]
    cases hf : st.cache.find? (equiv o (const p n c)) with
    | some r => exact found h hG hf
    | none =>
      obtain ⟨h1, h2, h3⟩ := h.insert ho hG (by simp [nodes]) (notfound h hG hf)
      exact ⟨h1, h2, rfl, fun c hc => (h3 c).2 (Or.inr hc), fun c hc => by
        rcases (h3 c).1 hc with rfl | h
        · exact Or.inr le_rfl
        · exact Or.inl h⟩
  | var p v =>
    simp only [elim]
    cases hf : st.cache.find? (equiv o (var p v)) with
    | some r => exact found h hG hf
    | none =>
      obtain ⟨h1, h2, h3⟩ := h.insert ho hG (by simp [nodes]) (notfound h hG hf)
      exact ⟨h1, h2, rfl, fun c hc => (h3 c).2 (Or.inr hc), fun c hc => by
        rcases (h3 c).1 hc with rfl | h
        · exact Or.inr le_rfl
        · exact Or.inl h⟩
  | un p op a ih =>
    simp only [elim]
    cases hf : st.cache.find? (equiv o (un p op a)) with
    | some r => exact found h hG hf
    | none =>
      have haG : a ∈ G := h.gclosed _ hG (Or.inr (self_mem_nodes a))
      have s1 := ih st h haG
      have hne : ∀ c ∈ (elim o a st).2.cache, c.erase ≠ (un p op a).erase := by
        intro c hc heq
        rcases s1.small c hc with h' | h'
        · exact notfound h hG hf c h' heq
        · rw [heq] at h'; simp [erase, size] at h'
      by_cases hp : (elim o a st).1.addr = a.addr
      · rw [if_pos hp]
        have ea : (elim o a st).1 = a := s1.inv.coh _ (Or.inr s1.mem) _ (Or.inl haG) hp
        have hamem := s1.mem
        rw [ea] at hamem
        obtain ⟨h1, h2, h3⟩ := s1.inv.insert ho hG (by
          intro d hd
          rcases hd with rfl | hd
          · exact Or.inl rfl
          · exact Or.inr (s1.inv.closed _ hamem d hd)) hne
        exact ⟨h1, h2, rfl, fun c hc => (h3 c).2 (Or.inr (s1.mono c hc)), fun c hc => by
          rcases (h3 c).1 hc with rfl | h
          · exact Or.inr le_rfl
          · rcases s1.small c h with h | h
            · exact Or.inl h
            · right; simp only [erase, size]; omega⟩
      · rw [if_neg hp]
        have hv : (un (elim o a st).2.next op (elim o a st).1).erase = (un p op a).erase := by
          simp only [erase, s1.val]
        obtain ⟨h1, h2, h3⟩ := s1.inv.insertNew ho (e := un (elim o a st).2.next op (elim o a st).1) rfl
          (by rw [hv]; exact h.cst _ (Or.inl hG)) (by
          intro d hd
          rcases hd with rfl | hd
          · exact Or.inl rfl
          · exact Or.inr (s1.inv.closed _ s1.mem d hd)) (by rw [hv]; exact hne)
        exact ⟨h1, h2, hv, fun c hc => (h3 c).2 (Or.inr (s1.mono c hc)), fun c hc => by
          rcases (h3 c).1 hc with rfl | h
          · exact Or.inr (by rw [hv])
          · rcases s1.small c h with h | h
            · exact Or.inl h
            · right; simp only [erase, size]; omega⟩
  | bin p op a b iha ihb =>
    simp only [elim]
    cases hf : st.cache.find? (equiv o (bin p op a b)) with
    | some r => exact found h hG hf
    | none =>
      have haG : a ∈ G := h.gclosed _ hG (Or.inr (Or.inl (self_mem_nodes a)))
      have hbG : b ∈ G := h.gclosed _ hG (Or.inr (Or.inr (self_mem_nodes b)))
      have s1 := iha st h haG
      have s2 := ihb (elim o a st).2 s1.inv hbG
      generalize hst1 : (elim o a st).2 = st1 at s1 s2
      generalize hst2 : (elim o b st1).2 = st2 at s1 s2
      simp only [hst1, hst2]
      have hamem := s2.mono _ s1.mem
      have hsm : ∀ c ∈ st2.cache, c ∈ st.cache ∨ size c.erase < size (bin p op a b).erase := by
        intro c hc
        rcases s2.small c hc with h' | h'
        · rcases s1.small c h' with h' | h'
          · exact Or.inl h'
          · right; simp only [erase, size]; omega
        · right; simp only [erase, size]; omega
      have hne : ∀ c ∈ st2.cache, c.erase ≠ (bin p op a b).erase := by
        intro c hc heq
        rcases hsm c hc with h' | h'
        · exact notfound h hG hf c h' heq
        · rw [heq] at h'; exact lt_irrefl _ h'
      by_cases hp : (elim o a st).1.addr = a.addr ∧ (elim o b st1).1.addr = b.addr
      · rw [if_pos hp]
        have ea : (elim o a st).1 = a := s1.inv.coh _ (Or.inr s1.mem) _ (Or.inl haG) hp.1
        have eb : (elim o b st1).1 = b := s2.inv.coh _ (Or.inr s2.mem) _ (Or.inl hbG) hp.2
        have hbmem := s2.mem
        rw [ea] at hamem
        rw [eb] at hbmem
        obtain ⟨h1, h2, h3⟩ := s2.inv.insert ho hG (by
          intro d hd
          rcases hd with rfl | hd | hd
          · exact Or.inl rfl
          · exact Or.inr (s2.inv.closed _ hamem d hd)
          · exact Or.inr (s2.inv.closed _ hbmem d hd)) hne
        exact ⟨h1, h2, rfl, fun c hc => (h3 c).2 (Or.inr (s2.mono _ (s1.mono c hc))), fun c hc => by
          rcases (h3 c).1 hc with rfl | h
          · exact Or.inr le_rfl
          · exact (hsm c h).imp id le_of_lt⟩
      · rw [if_neg hp]
        have hv : (bin st2.next op (elim o a st).1 (elim o b st1).1).erase = (bin p op a b).erase := by
          simp only [erase, s1.val, s2.val]
        obtain ⟨h1, h2, h3⟩ := s2.inv.insertNew ho (e := bin st2.next op (elim o a st).1 (elim o b st1).1) rfl
          (by rw [hv]; exact h.cst _ (Or.inl hG)) (by
          intro d hd
          rcases hd with rfl | hd | hd
          · exact Or.inl rfl
          · exact Or.inr (s2.inv.closed _ hamem d hd)
          · exact Or.inr (s2.inv.closed _ s2.mem d hd)) (by rw [hv]; exact hne)
        exact ⟨h1, h2, hv, fun c hc => (h3 c).2 (Or.inr (s2.mono _ (s1.mono c hc))), fun c hc => by
          rcases (h3 c).1 hc with rfl | h
          · exact Or.inr (by rw [hv])
          · exact (hsm c h).imp id le_of_lt⟩
  | pow p a n ih =>
    simp only [elim]
    cases hf : st.cache.find? (equiv o (pow p a n)) with
    | some r => exact found h hG hf
    | none =>
      have haG : a ∈ G := h.gclosed _ hG (Or.inr (self_mem_nodes a))
      have s1 := ih st h haG
      have hne : ∀ c ∈ (elim o a st).2.cache, c.erase ≠ (pow p a n).erase := by
        intro c hc heq
        rcases s1.small c hc with h' | h'
        · exact notfound h hG hf c h' heq
        · rw [heq] at h'; simp [erase, size] at h'
      by_cases hp : (elim o a st).1.addr = a.addr
      · rw [if_pos hp]
        have ea : (elim o a st).1 = a := s1.inv.coh _ (Or.inr s1.mem) _ (Or.inl haG) hp
        have hamem := s1.mem
        rw [ea] at hamem
        obtain ⟨h1, h2, h3⟩ := s1.inv.insert ho hG (by
          intro d hd
          rcases hd with rfl | hd
          · exact Or.inl rfl
          · exact Or.inr (s1.inv.closed _ hamem d hd)) hne
        exact ⟨h1, h2, rfl, fun c hc => (h3 c).2 (Or.inr (s1.mono c hc)), fun c hc => by
          rcases (h3 c).1 hc with rfl | h
          · exact Or.inr le_rfl
          · rcases s1.small c h with h | h
            · exact Or.inl h
            · right; simp only [erase, size]; omega⟩
      · rw [if_neg hp]
        have hv : (pow (elim o a st).2.next (elim o a st).1 n).erase = (pow p a n).erase := by
          simp only [erase, s1.val]
        obtain ⟨h1, h2, h3⟩ := s1.inv.insertNew ho (e := pow (elim o a st).2.next (elim o a st).1 n) rfl
          (by rw [hv]; exact h.cst _ (Or.inl hG)) (by
          intro d hd
          rcases hd with rfl | hd
          · exact Or.inl rfl
          · exact Or.inr (s1.inv.closed _ s1.mem d hd)) (by rw [hv]; exact hne)
        exact ⟨h1, h2, hv, fun c hc => (h3 c).2 (Or.inr (s1.mono c hc)), fun c hc => by
          rcases (h3 c).1 hc with rfl | h
          · exact Or.inr (by rw [hv])
          · rcases s1.small c h with h | h
            · exact Or.inl h
            · right; simp only [erase, size]; omega⟩

theorem elimList_spec {o : Decide} {S : Set ℝ} (ho : o.ExactOn S) {G : Set (PExpr V)} (es : List (PExpr V)) (st : Cse V)
    (h : CInv S G st) (hG : ∀ e ∈ es, e ∈ G) :
    CInv S G (elimList o es st).2 ∧ (elimList o es st).1.map erase = es.map erase ∧
      (∀ r ∈ (elimList o es st).1, r ∈ (elimList o es st).2.cache) ∧
      ∀ c ∈ st.cache, c ∈ (elimList o es st).2.cache := by
  induction es generalizing st with
  | nil => exact ⟨h, rfl, by simp [elimList], fun _ h => h⟩
  | cons e es ih =>
    have s := elim_spec ho e st h (hG e (by simp))
    obtain ⟨h1, h2, h3, h4⟩ := ih (elim o e st).2 s.inv (fun e he => hG e (by simp [he]))
    refine ⟨h1, ?_, ?_, fun c hc => h4 c (s.mono c hc)⟩
    · simp only [elimList, List.map_cons, s.val, h2]
    · intro r hr
      simp only [elimList, List.mem_cons] at hr ⊢
      rcases hr with rfl | hr
      · exact h4 _ s.mem
      · exact h3 r hr

/-- spec: a list of expressions in memory: different nodes have different addresses, below
`next`, and the constants are in `S`. -/
structure InMemory (S : Set ℝ) (es : List (PExpr V)) (next : ℕ) : Prop where
  coh : Coherent {n | ∃ e ∈ es, n ∈ e.nodes}
  fresh : ∀ e ∈ es, ∀ n ∈ e.nodes, n.addr < next
  cst : ∀ e ∈ es, e.erase.ConstIn S

omit [LinearOrder V] in
theorem constIn_nodes {S : Set ℝ} {e d : PExpr V} (h : e.erase.ConstIn S) (hd : d ∈ e.nodes) : d.erase.ConstIn S := by
  induction e with
  | const p n c => simp only [nodes, Set.mem_singleton_iff] at hd; subst hd; exact h
  | var p v => simp only [nodes, Set.mem_singleton_iff] at hd; subst hd; exact h
  | un p op a ih =>
    rcases hd with rfl | hd
    · exact h
    · exact ih h hd
  | bin p op a b iha ihb =>
    rcases hd with rfl | hd | hd
    · exact h
    · exact iha h.1 hd
    · exact ihb h.2 hd
  | pow p a n ih =>
    rcases hd with rfl | hd
    · exact h
    · exact ih h hd

omit [LinearOrder V] in
theorem InMemory.inv {S : Set ℝ} {es : List (PExpr V)} {next : ℕ} (h : InMemory S es next) :
    CInv S {n | ∃ e ∈ es, n ∈ e.nodes} ⟨[], next⟩ := by
  have hset : ({n | ∃ e ∈ es, n ∈ e.nodes} : Set (PExpr V)) ∪ {c | c ∈ ([] : List (PExpr V))} =
      {n | ∃ e ∈ es, n ∈ e.nodes} := by ext; simp
  refine ⟨by simp, by simp, by simp only [hset]; exact h.coh, ?_, ?_, ?_⟩
  · simp only [hset]; rintro c ⟨e, he, hc⟩; exact h.fresh e he c hc
  · rintro c ⟨e, he, hc⟩ d hd; exact ⟨e, he, nodes_sub hc hd⟩
  · simp only [hset]; rintro c ⟨e, he, hc⟩; exact constIn_nodes (h.cst e he) hc

/-- C51: elimination of common subexpressions of a vector leaves every expression unchanged,
and afterwards any two nodes of the results which are equal expressions are the same node in
memory, provided that the comparisons of the constants are decided. -/
theorem C51_eliminate_partial {o : Decide} {S : Set ℝ} (ho : o.ExactOn S) {es : List (PExpr V)} {next : ℕ}
    (h : InMemory S es next) :
    let rs := (elimList o es ⟨[], next⟩).1
    rs.map erase = es.map erase ∧
      (∀ r ∈ rs, ∀ s ∈ rs, ∀ m ∈ r.nodes, ∀ n ∈ s.nodes, m.erase = n.erase ↔ m.addr = n.addr) := by
  obtain ⟨h1, h2, h3, -⟩ := elimList_spec ho es ⟨[], next⟩ h.inv (fun e he => ⟨e, he, self_mem_nodes e⟩)
  refine ⟨h2, ?_⟩
  intro r hr s hs m hm n hn
  have hm' := h1.closed r (h3 r hr) m hm
  have hn' := h1.closed s (h3 s hs) n hn
  exact ⟨fun e => by rw [h1.inj m hm' n hn' e], fun e => by rw [h1.coh m (Or.inr hm') n (Or.inr hn') e]⟩

/-- C51: in particular, values are preserved. -/
theorem C51_value_partial {o : Decide} {S : Set ℝ} (ho : o.ExactOn S) {es : List (PExpr V)} {next : ℕ}
    (h : InMemory S es next) (x : V → ℝ) :
    (elimList o es ⟨[], next⟩).1.map (fun e => e.erase.eval x) = es.map (fun e => e.erase.eval x) := by
  have := (C51_eliminate_partial ho h).1
  have := congrArg (List.map (fun e : Expr V => e.eval x)) this
  simpa only [List.map_map, Function.comp_def] using this

/-- The decisions of the code on `1/10`: as this is not a double-precision number, `same` fails.
-/
def tenth : Decide := ⟨fun a b => decide (a < b), fun _ _ => false⟩

/-- C51: with constants which are not double-precision numbers, elimination of common
subexpressions is wrong: `(0.1+x)*(0.1+y)` becomes `(0.1+x)*(0.1+x)`. -/
theorem C51_eliminate_counterexample :
    let e : PExpr ℕ := bin 6 .mul (bin 2 .add (const 0 ⊥ (1/10)) (var 1 0)) (bin 5 .add (const 3 ⊥ (1/10)) (var 4 1))
    (elim tenth e ⟨[], 7⟩).1 =
      bin 7 .mul (bin 2 .add (const 0 ⊥ (1/10)) (var 1 0)) (bin 2 .add (const 0 ⊥ (1/10)) (var 1 0)) := by
  intro e
  simp [e, elim, insertC, PExpr.equiv, before, PExpr.identical, tenth, index, addr, BinOp.code]

/-- Non-vacuity: `(1+x)*(1+x)` with two copies of each node. -/
example : InMemory (V := ℕ) {1} [bin 6 .mul (bin 2 .add (const 0 ⊥ 1) (var 1 0)) (bin 5 .add (const 3 ⊥ 1) (var 4 0))] 7 := by
  refine ⟨?_, ?_, ?_⟩
  · rintro a ⟨e, he, ha⟩ b ⟨e', he', hb⟩ hab
    simp only [List.mem_singleton] at he he'
    subst he he'
    simp only [nodes, Set.mem_insert_iff, Set.mem_union, Set.mem_singleton_iff] at ha hb
    rcases ha with rfl | (rfl | rfl | rfl) | rfl | rfl | rfl <;>
      rcases hb with rfl | (rfl | rfl | rfl) | rfl | rfl | rfl <;> simp [addr] at hab ⊢
  · intro e he n hn
    simp only [List.mem_singleton] at he
    subst he
    simp only [nodes, Set.mem_insert_iff, Set.mem_union, Set.mem_singleton_iff] at hn
    rcases hn with rfl | (rfl | rfl | rfl) | rfl | rfl | rfl <;> simp [addr]
  · simp [erase, Expr.ConstIn]
example : (⟨fun a b => decide (a < b), fun a b => decide (a = b)⟩ : Decide).ExactOn Set.univ := by
  intro a _ b _; simp

end Ariadne.Symbolic
