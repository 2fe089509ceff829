import Verif.Tensor.Model
import Mathlib.Algebra.Field.Rat
import Mathlib.Algebra.Order.Ring.Nat
import Mathlib.Data.List.Basic
import Mathlib.Tactic.Ring
import Mathlib.Tactic.NormNum
import Mathlib.Tactic.Linarith

/-!
# C109: tensors keep their elements apart
-/

namespace Verif.Tensor

variable {X Y : Type}

/-- Indices within the sizes. -/
abbrev Within (is ns : List ℕ) : Prop := List.Forall₂ (· < ·) is ns

theorem indexLoop_lt : ∀ (ns is : List ℕ) (r m : ℕ), Within is ns → r < m → indexLoop r ns is < ns.foldl (· * ·) m := by
  intro ns
  induction ns with
  | nil => intro is r m h hr; cases h; exact hr
  | cons n ns ih =>
    intro is r m h hr
    cases h with
    | cons hi h =>
      refine ih _ _ _ h ?_
      calc r * n + _ < r * n + n := by omega
        _ = (r + 1) * n := by ring
        _ ≤ m * n := Nat.mul_le_mul_right _ hr

theorem indexLoop_inj : ∀ (ns is js : List ℕ) (r q : ℕ), Within is ns → Within js ns → indexLoop r ns is = indexLoop q ns js →
    r = q ∧ is = js := by
  intro ns
  induction ns with
  | nil => intro is js r q hi hj h; cases hi; cases hj; exact ⟨h, rfl⟩
  | cons n ns ih =>
    intro is js r q hi hj h
    cases hi with
    | cons a hi =>
      cases hj with
      | cons b hj =>
        obtain ⟨e, rfl⟩ := ih _ _ _ _ hi hj h
        have h1 := congrArg (· % n) e
        have h2 := congrArg (· / n) e
        simp only [Nat.mul_add_mod_self_right, Nat.mod_eq_of_lt a, Nat.mod_eq_of_lt b] at h1
        simp only [Nat.mul_comm _ n] at h2
        rw [Nat.mul_add_div (by omega), Nat.mul_add_div (by omega), Nat.div_eq_of_lt a, Nat.div_eq_of_lt b] at h2
        exact ⟨by omega, by rw [h1]⟩

theorem index_lt {ns is : List ℕ} (h : Within is ns) (hn : ns ≠ []) : index ns is < totalSize ns := by
  cases h with
  | nil => exact absurd rfl hn
  | cons hi h =>
    refine indexLoop_lt _ _ _ _ h ?_
    show _ < 1 * _
    omega

theorem index_inj {ns is js : List ℕ} (hi : Within is ns) (hj : Within js ns) (h : index ns is = index ns js) : is = js := by
  cases hi with
  | nil => cases hj; rfl
  | cons a hi =>
    cases hj with
    | cons b hj =>
      obtain ⟨rfl, rfl⟩ := indexLoop_inj _ _ _ _ _ hi hj h
      rfl

/-- A tensor with as many elements as its sizes say. -/
def Sized (t : Tensor X) : Prop := t.ns ≠ [] ∧ t.a.length = totalSize t.ns

/-- **C109**: in tensors of any rank, elements at indices within the sizes can be read; after writing one, the element reads as
what was written, and those at other indices are unchanged. -/
theorem C109_elements (t : Tensor X) (ht : Sized t) (is : List ℕ) (hi : Within is t.ns) (x : X) :
    (∃ y, get t is = some y) ∧ ∃ t', set t is x = some t' ∧ Sized t' ∧ t'.ns = t.ns ∧ get t' is = some x ∧
      ∀ js, Within js t.ns → js ≠ is → get t' js = get t js := by
  have hlt : index t.ns is < t.a.length := by rw [ht.2]; exact index_lt hi ht.1
  refine ⟨⟨_, List.getElem?_eq_getElem hlt⟩, _, if_pos hlt, ⟨ht.1, by simpa using ht.2⟩, rfl, ?_, fun js hj hne => ?_⟩
  · exact List.getElem?_set_self hlt
  · exact List.getElem?_set_ne fun e => hne (index_inj hi hj e).symm

/-- **C109**: a constant tensor has its value everywhere. -/
theorem C109_constant (ns : List ℕ) (hn : ns ≠ []) (z : X) : Sized (constant ns z) ∧
    ∀ is, Within is ns → get (constant ns z) is = some z := by
  refine ⟨⟨hn, List.length_replicate⟩, fun is hi => ?_⟩
  have := index_lt hi hn
  unfold get constant
  rw [List.getElem?_replicate, if_pos this]

theorem inner_spec (n1 i0 : ℕ) (g : ℕ → ℕ → X) (a : List X) (m : ℕ) :
    ((List.range m).foldl (fun a i1 => a.set (i0 * n1 + i1) (g i0 i1)) a).length = a.length ∧
    ∀ k, k < a.length → ((List.range m).foldl (fun a i1 => a.set (i0 * n1 + i1) (g i0 i1)) a)[k]? =
      if i0 * n1 ≤ k ∧ k < i0 * n1 + m then some (g i0 (k - i0 * n1)) else a[k]? := by
  induction m with
  | zero => exact ⟨rfl, fun k _ => by rw [if_neg (by omega)]; rfl⟩
  | succ m ih =>
    rw [List.range_succ, List.foldl_append]
    refine ⟨by simpa using ih.1, fun k hk => ?_⟩
    show (List.set _ _ _)[k]? = _
    by_cases e : i0 * n1 + m = k
    · subst e
      rw [List.getElem?_set_self (by rw [ih.1]; exact hk), if_pos (by omega), Nat.add_sub_cancel_left]
    · rw [List.getElem?_set_ne e, ih.2 k hk]
      by_cases h : i0 * n1 ≤ k ∧ k < i0 * n1 + m
      · rw [if_pos h, if_pos (by omega)]
      · rw [if_neg h, if_neg (by omega)]

theorem outer_spec (n1 : ℕ) (g : ℕ → ℕ → X) (a : List X) (m : ℕ) :
    (generateLoop m n1 g a).length = a.length ∧
    ∀ i0 i1, i1 < n1 → i0 * n1 + i1 < a.length → (generateLoop m n1 g a)[i0 * n1 + i1]? =
      if i0 < m then some (g i0 i1) else a[i0 * n1 + i1]? := by
  induction m with
  | zero => exact ⟨rfl, fun i0 i1 _ _ => by rw [if_neg (by omega)]; rfl⟩
  | succ m ih =>
    have e : generateLoop (m + 1) n1 g a =
        (List.range n1).foldl (fun a i1 => a.set (m * n1 + i1) (g m i1)) (generateLoop m n1 g a) := by
      unfold generateLoop
      rw [List.range_succ, List.foldl_append]; rfl
    obtain ⟨h1, h2⟩ := inner_spec n1 m g (generateLoop m n1 g a) n1
    rw [e]
    refine ⟨h1.trans ih.1, fun i0 i1 hi hk => ?_⟩
    rw [h2 _ (by rw [ih.1]; exact hk), ih.2 i0 i1 hi hk]
    rcases Nat.lt_trichotomy i0 m with h | h | h
    · have : i0 * n1 + i1 < m * n1 := by
        calc i0 * n1 + i1 < i0 * n1 + n1 := by omega
          _ = (i0 + 1) * n1 := by ring
          _ ≤ m * n1 := Nat.mul_le_mul_right _ h
      rw [if_neg (by omega), if_pos h, if_pos (by omega)]
    · subst h
      rw [if_pos (by omega), if_pos (by omega), Nat.add_sub_cancel_left]
    · have : m * n1 + n1 ≤ i0 * n1 := by
        calc m * n1 + n1 = (m + 1) * n1 := by ring
          _ ≤ i0 * n1 := Nat.mul_le_mul_right _ h
      rw [if_neg (by omega), if_neg (by omega), if_neg (by omega)]

/-- **C109**: the tensor made from a function has its values. -/
theorem C109_generate (n0 n1 : ℕ) (g : ℕ → ℕ → X) : Sized (generate n0 n1 g) ∧
    ∀ i0 < n0, ∀ i1 < n1, get (generate n0 n1 g) [i0, i1] = some (g i0 i1) := by
  obtain ⟨h1, h2⟩ := outer_spec n1 g (List.replicate (totalSize [n0, n1]) (g 0 0)) n0
  refine ⟨⟨by simp [generate], by show List.length _ = _; rw [generate, h1, List.length_replicate]⟩, fun i0 a i1 b => ?_⟩
  have hlt : i0 * n1 + i1 < totalSize [n0, n1] := index_lt (ns := [n0, n1]) (is := [i0, i1]) (.cons a (.cons b .nil)) (by simp)
  have := h2 i0 i1 b (by rw [List.length_replicate]; exact hlt)
  rw [if_pos a] at this
  exact this

theorem transform_inner {t : Tensor X} {n0 n1 i0 : ℕ} (h0 : i0 < n0) (f : X → Y) (v : ℕ → ℕ → X)
    (hv : ∀ i1 < n1, get t [i0, i1] = some (v i0 i1)) : ∀ (l : List ℕ) (a : List Y), (∀ i ∈ l, i < n1) →
    a.length = totalSize [n0, n1] →
    l.foldlM (fun r i1 => (get t [i0, i1]).bind fun x => set r [i0, i1] (f x)) (⟨[n0, n1], a⟩ : Tensor Y) =
      some ⟨[n0, n1], l.foldl (fun a i1 => a.set (i0 * n1 + i1) (f (v i0 i1))) a⟩ := by
  intro l
  induction l with
  | nil => intro a _ _; rfl
  | cons i l ih =>
    intro a hl ha
    have hi := hl i List.mem_cons_self
    have hlt : i0 * n1 + i < totalSize [n0, n1] := index_lt (ns := [n0, n1]) (is := [i0, i]) (.cons h0 (.cons hi .nil)) (by simp)
    rw [List.foldlM_cons, hv i hi, Option.bind_some,
      show set (⟨[n0, n1], a⟩ : Tensor Y) [i0, i] (f (v i0 i)) = some ⟨[n0, n1], a.set (i0 * n1 + i) (f (v i0 i))⟩ from
        if_pos (by rw [ha]; exact hlt)]
    exact ih _ (fun j hj => hl j (List.mem_cons_of_mem _ hj)) (by simpa using ha)

/-- **C109**: `transform` applies the function to every element. -/
theorem C109_transform (t : Tensor X) (ht : Sized t) (n0 n1 : ℕ) (hn : t.ns = [n0, n1]) (h0 : 0 < n0) (h1 : 0 < n1) (f : X → Y) :
    ∃ r, transform t n0 n1 f = some r ∧ Sized r ∧ r.ns = t.ns ∧
      ∀ i0 < n0, ∀ i1 < n1, get r [i0, i1] = (get t [i0, i1]).map f := by
  have hex : ∀ i0 i1, i0 < n0 → i1 < n1 → ∃ y, get t [i0, i1] = some y := fun i0 i1 a b =>
    have hw : Within [i0, i1] t.ns := by rw [hn]; exact .cons a (.cons b .nil)
    ⟨_, List.getElem?_eq_getElem (by rw [ht.2]; exact index_lt hw ht.1)⟩
  obtain ⟨x0, hx0⟩ := hex 0 0 h0 h1
  obtain ⟨v, hv⟩ : ∃ v : ℕ → ℕ → X, ∀ i0 < n0, ∀ i1 < n1, get t [i0, i1] = some (v i0 i1) :=
    ⟨fun i0 i1 => (get t [i0, i1]).getD x0, fun i0 a i1 b => by obtain ⟨y, hy⟩ := hex i0 i1 a b; simp only [hy, Option.getD_some]⟩
  have key : ∀ m ≤ n0, (List.range m).foldlM (fun r i0 => (List.range n1).foldlM (fun r i1 =>
      (get t [i0, i1]).bind fun x => set r [i0, i1] (f x)) r) (constant [n0, n1] (f x0)) =
      some ⟨[n0, n1], generateLoop m n1 (fun i j => f (v i j)) (List.replicate (totalSize [n0, n1]) (f x0))⟩ := by
    intro m
    induction m with
    | zero => intro _; rfl
    | succ m ih =>
      intro hm
      rw [List.range_succ, List.foldlM_append, ih (by omega)]
      have hlen := (outer_spec n1 (fun i j => f (v i j)) (List.replicate (totalSize [n0, n1]) (f x0)) m).1
      have := transform_inner (t := t) (n0 := n0) (n1 := n1) (i0 := m) (by omega) f v (hv m (by omega)) (List.range n1) _
        (fun i hi => List.mem_range.1 hi) (hlen.trans List.length_replicate)
      simp only [Option.bind_eq_bind, Option.bind_some, List.foldlM_cons, List.foldlM_nil]
      rw [this]
      unfold generateLoop
      rw [List.range_succ, List.foldl_append]; rfl
  obtain ⟨g1, g2⟩ := outer_spec n1 (fun i j => f (v i j)) (List.replicate (totalSize [n0, n1]) (f x0)) n0
  refine ⟨⟨[n0, n1], generateLoop n0 n1 (fun i j => f (v i j)) (List.replicate (totalSize [n0, n1]) (f x0))⟩, ?_,
    ⟨by simp, g1.trans List.length_replicate⟩, hn.symm, fun i0 a i1 b => ?_⟩
  · unfold transform
    rw [hx0, Option.bind_some]
    exact key n0 le_rfl
  · have hlt : i0 * n1 + i1 < totalSize [n0, n1] := index_lt (ns := [n0, n1]) (is := [i0, i1]) (.cons a (.cons b .nil)) (by simp)
    have := g2 i0 i1 b (by rw [List.length_replicate]; exact hlt)
    rw [if_pos a] at this
    rw [hv i0 a i1 b]
    exact this

/-- One past the last column is the first column of the next row: access is not checked. -/
theorem C109_alias_fails (t : Tensor X) (n0 n1 i : ℕ) (h : t.ns = [n0, n1]) : get t [i, n1] = get t [i + 1, 0] := by
  unfold get
  rw [h]
  show t.a[i * n1 + n1]? = t.a[(i + 1) * n1 + 0]?
  congr 1
  ring

/-- **C109**: the solver for a string writes past its last step. For four points and three times, with initial values 0, 1, 2, 0
and fixed ends, the result has the values 0, 1, -2, -1 at the initial time, also at the fixed end. -/
theorem C109_string_initial_fails : ∃ t, stringSolve (K := ℚ) 4 3 1 0 1 (fun _ _ => 0)
      (fun i => if i = 1 then 1 else if i = 2 then 2 else 0) = some t ∧
    get t [2, 0] = some (-2) ∧ get t [3, 0] = some (-1) := by
  refine ⟨_, rfl, ?_⟩
  decide +kernel

/-- **C109**: for a string at rest with Courant number 1, of which the solution after one step is the mean of the values at the
neighbours, the first step has the opposite sign: a peak of height 1 between fixed ends moves to 2 and not to 0. -/
theorem C109_string_first_fails : ∃ t, stringSolve (K := ℚ) 3 3 1 0 1 (fun _ _ => 0) (fun i => if i = 1 then 1 else 0) = some t ∧
    get t [1, 1] = some 2 := by
  refine ⟨_, rfl, ?_⟩
  decide +kernel

/-- **C109** (partial): the points go from 0 to the length, and all but the last are equally spaced. Missing: the last
(`C109_linspace_fails`). -/
theorem C109_linspace_partial {K : Type} [Field K] (L : K) (n : ℕ) (hn : 2 ≤ n) : (linspace L n).length = n ∧
    (linspace L n)[0]? = some 0 ∧ (linspace L n)[n - 1]? = some L ∧
    ∀ i, i + 1 < n → (linspace L n)[i]? = some (L / n * i) := by
  have h : linspace L n = ((List.range (n - 1)).map fun i : ℕ => L / n * (i : K)) ++ [L] := by
    unfold linspace; rw [if_neg (by omega), if_neg (by omega)]
  have hi : ∀ i, i + 1 < n → (linspace L n)[i]? = some (L / n * i) := by
    intro i hi
    rw [h, List.getElem?_append_left (by simp; omega), List.getElem?_map, List.getElem?_range (by omega)]; rfl
  refine ⟨by rw [h]; simp; omega, ?_, ?_, hi⟩
  · rw [hi 0 (by omega)]; simp
  · rw [h, List.getElem?_append_right (by simp)]; simp

/-- **C109**: three points on a string of length 1 are 0, 1/3 and 1. -/
theorem C109_linspace_fails : linspace (1 : ℚ) 3 = [0, 1 / 3, 1] := by decide +kernel

example : Sized (constant [2, 3] (0 : ℕ)) ∧ Within [1, 2] [2, 3] := by
  refine ⟨⟨by simp [constant], rfl⟩, .cons (by omega) (.cons (by omega) .nil)⟩

end Verif.Tensor
