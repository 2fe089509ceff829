import Verif.Simulator.Model
import Mathlib.Algebra.Order.Archimedean.Basic
import Mathlib.Algebra.Order.Field.Basic
import Mathlib.Data.List.Sort
import Mathlib.Logic.Function.Iterate
import Mathlib.Tactic.Linarith
import Mathlib.Tactic.Ring

/-!
# Times and points recorded by a simulation
-/

namespace Verif.Simulator

variable {T V P : Type*}

/-- The times of the loop: `zero`, `zero+h`, `zero+h+h`, ... -/
def clock (add : T → T → T) (h : T) (t : T) (k : ℕ) : T := (fun s => add s h)^[k] t

/-- What has to be recorded in `n` steps after the initial point. -/
def trace (add : T → T → T) (st : V → V) (h t : T) (x : V) (n : ℕ) : List (T × V) :=
  (List.range n).map fun k => (clock add h t (k + 1), st^[k + 1] x)

theorem trace_succ (add : T → T → T) (st : V → V) (h t : T) (x : V) (n : ℕ) :
    trace add st h t x (n + 1) = (add t h, st x) :: trace add st h (add t h) (st x) n := by
  simp only [trace, List.range_succ_eq_map, List.map_cons, List.map_map]
  rfl

theorem march_eq (add : T → T → T) (lt : T → T → Bool) (st : V → V) (h tmax : T) (n : ℕ) :
    ∀ (t : T) (x : V) (fuel : ℕ), n < fuel → (∀ k < n, lt (clock add h t k) tmax = true) →
      lt (clock add h t n) tmax = false → march add lt st h tmax fuel t x = some (trace add st h t x n) := by
  induction n with
  | zero =>
    intro t x fuel hf _ hn
    obtain ⟨m, rfl⟩ : ∃ m, fuel = m + 1 := ⟨fuel - 1, by omega⟩
    have : lt t tmax = false := hn
    simp [march, this, trace]
  | succ n ih =>
    intro t x fuel hf hk hn
    obtain ⟨m, rfl⟩ : ∃ m, fuel = m + 1 := ⟨fuel - 1, by omega⟩
    have h0 : lt t tmax = true := hk 0 (by omega)
    have := ih (add t h) (st x) m (by omega) (fun k hk' => hk (k + 1) (by omega)) hn
    simp [march, h0, this, trace_succ]

theorem march_none (add : T → T → T) (lt : T → T → Bool) (st : V → V) (h tmax : T) (fuel : ℕ) :
    ∀ (t : T) (x : V), (∀ k, lt (clock add h t k) tmax = true) → march add lt st h tmax fuel t x = none := by
  induction fuel with
  | zero => intros; rfl
  | succ n ih =>
    intro t x hk
    have h0 : lt t tmax = true := hk 0
    have := ih (add t h) (st x) (fun k => hk (k + 1))
    simp [march, h0, this]

/-- The number of iterations performed is the first one for which the time has reached the end. -/
theorem march_some (add : T → T → T) (lt : T → T → Bool) (st : V → V) (h tmax : T) (fuel : ℕ) :
    ∀ (t : T) (x : V) (r : List (T × V)), march add lt st h tmax fuel t x = some r →
      ∃ n, r = trace add st h t x n ∧ (∀ k < n, lt (clock add h t k) tmax = true) ∧
        lt (clock add h t n) tmax = false := by
  induction fuel with
  | zero => intro t x r h; simp [march] at h
  | succ m ih =>
    intro t x r hr
    rw [march] at hr
    split at hr
    · obtain ⟨r', h1, rfl⟩ := Option.map_eq_some_iff.1 hr
      obtain ⟨n, rfl, h2, h3⟩ := ih _ _ _ h1
      refine ⟨n + 1, by rw [trace_succ], fun k hk => ?_, h3⟩
      cases k with
      | zero => assumption
      | succ k => exact h2 k (by omega)
    · simp only [Option.some.injEq] at hr
      subst hr
      exact ⟨0, rfl, by omega, by simpa [clock, Bool.not_eq_true] using ‹¬ lt t tmax = true›⟩

section Evolve

variable (zero : T) (add : T → T → T) (lt : T → T → Bool) (st : T → V → V)

/-- If `evolve` returns, it returns the initial point at time zero followed by a point for every step
until the first time which is not before the end, each obtained from the previous one by a step of the size
added to the time.  The size is the one of the integrator only if no other integrator has been used before:
see `C100_static_step_size_fails`. -/
theorem C100_evolve_partial (size tmax : T) (fuel : ℕ) (x0 : V) (r : List (T × V))
    (h : (evolve zero add lt st none size tmax fuel x0).1 = some r) :
    ∃ n, r = (List.range (n + 1)).map (fun k => (clock add size zero k, (st size)^[k] x0)) ∧
      (∀ k < n, lt (clock add size zero k) tmax = true) ∧ lt (clock add size zero n) tmax = false := by
  simp only [evolve, Option.getD_none] at h
  obtain ⟨r', h1, rfl⟩ := Option.map_eq_some_iff.1 h
  obtain ⟨n, rfl, h2, h3⟩ := march_some add lt (st size) size tmax fuel _ _ _ h1
  refine ⟨n, ?_, h2, h3⟩
  rw [List.range_succ_eq_map, List.map_cons, List.map_map]
  rfl

/-- The static step size never changes after the first call. -/
theorem C100_static (s size tmax : T) (fuel : ℕ) (x0 : V) :
    evolve zero add lt st (some s) size tmax fuel x0 = evolve zero add lt st none s tmax fuel x0 := rfl

/-- A time which the addition of the step size does not change makes the loop endless. -/
theorem C100_stalls (size tmax : T) (x0 : V) (k : ℕ) (hk : ∀ j ≤ k, lt (clock add size zero j) tmax = true)
    (hs : add (clock add size zero k) size = clock add size zero k) (fuel : ℕ) :
    (evolve zero add lt st none size tmax fuel x0).1 = none := by
  have : ∀ j, lt (clock add size zero j) tmax = true := by
    have hc : ∀ j, clock add size zero (k + j) = clock add size zero k := by
      intro j
      induction j with
      | zero => rfl
      | succ j ih =>
        rw [← Nat.add_assoc, clock, Function.iterate_succ_apply']
        show add (clock add size zero (k + j)) size = _
        rw [ih, hs]
    intro j
    rcases Nat.le_total j k with h | h
    · exact hk j h
    · obtain ⟨m, rfl⟩ := Nat.exists_eq_add_of_le h
      rw [hc]
      exact hk k le_rfl
  simp [evolve, march_none add lt (st size) size tmax fuel zero x0 this]

end Evolve

section Exact

variable {K : Type*} [Field K] [LinearOrder K] [IsStrictOrderedRing K]

theorem clock_exact (h t : K) (k : ℕ) : clock (· + ·) h t k = t + k * h := by
  induction k with
  | zero => simp [clock]
  | succ k ih =>
    rw [clock, Function.iterate_succ_apply']
    show clock (· + ·) h t k + h = _
    rw [ih]
    push_cast
    ring

/-- With exact times, a positive step size and enough iterations, `evolve` returns the points at the
multiples of the step size, the last of which is the first that is at or after the end. -/
theorem C100_evolve_exact [Archimedean K] (st : K → V → V) (size tmax : K) (hs : 0 < size) (x0 : V) :
    ∃ n : ℕ, (n = 0 ∨ ((n : K) - 1) * size < tmax) ∧ tmax ≤ n * size ∧ ∀ fuel > n,
      (evolve 0 (· + ·) (fun a b => decide (a < b)) st none size tmax fuel x0).1 =
        some ((List.range (n + 1)).map fun k : ℕ => ((k : K) * size, (st size)^[k] x0)) := by
  have hex : ∃ n : ℕ, tmax ≤ n * size := by
    obtain ⟨n, hn⟩ := Archimedean.arch tmax hs
    exact ⟨n, by simpa [nsmul_eq_mul] using hn⟩
  classical
  let n := Nat.find hex
  have hn : tmax ≤ n * size := Nat.find_spec hex
  have hk : ∀ k < n, (k : K) * size < tmax := fun k hk => lt_of_not_ge (Nat.find_min hex hk)
  refine ⟨n, ?_, hn, fun fuel hf => ?_⟩
  · rcases Nat.eq_zero_or_pos n with h | h
    · exact Or.inl h
    · right
      have := hk (n - 1) (by omega)
      rwa [Nat.cast_sub (by omega), Nat.cast_one] at this
  · have hm := march_eq (· + ·) (fun a b : K => decide (a < b)) (st size) size tmax n 0 x0 fuel hf
      (fun k h => by simpa [clock_exact] using hk k h) (by simpa [clock_exact] using hn)
    simp only [evolve, Option.getD_none, hm, Option.map_some]
    rw [List.range_succ_eq_map, List.map_cons, List.map_map]
    simp [trace, clock_exact]

/-- With a step size which is not positive and a positive end, `evolve` does not return. -/
theorem C100_nonpositive_step (st : K → V → V) (size tmax : K) (hs : size ≤ 0) (ht : 0 < tmax) (x0 : V) (fuel : ℕ) :
    (evolve 0 (· + ·) (fun a b => decide (a < b)) st none size tmax fuel x0).1 = none := by
  have := march_none (· + ·) (fun a b : K => decide (a < b)) (st size) size tmax fuel 0 x0 (fun k => by
    have : (k : K) * size ≤ 0 := mul_nonpos_of_nonneg_of_nonpos (Nat.cast_nonneg k) hs
    simpa [clock_exact] using lt_of_le_of_lt this ht)
  simp [evolve, this]

end Exact

/-! ## Curves -/

section Curve

variable [LinearOrder T]

/-- The parameters of a curve are strictly increasing. -/
def Sorted (c : List (T × P)) : Prop := c.Pairwise fun a b => a.1 < b.1

theorem mem_insert (t : T) (p : P) (c : List (T × P)) :
    ∀ a, a ∈ insert t p c → a = (t, p) ∨ a ∈ c := by
  induction c with
  | nil => intro a; simp [insert]
  | cons b c ih =>
    intro a h
    obtain ⟨s, q⟩ := b
    rw [insert] at h
    split_ifs at h
    · simpa using h
    · rcases List.mem_cons.1 h with rfl | h
      · simp
      · rcases ih a h with rfl | h <;> simp [*]
    · exact Or.inr h

/-- Inserting keeps the parameters increasing, keeps every point, and adds the new one unless there is
already a point at that parameter. -/
theorem C100_insert (t : T) (p : P) (c : List (T × P)) (hc : Sorted c) :
    Sorted (insert t p c) ∧ ∀ a, a ∈ insert t p c ↔ a ∈ c ∨ (a = (t, p) ∧ ∀ b ∈ c, b.1 ≠ t) := by
  induction c with
  | nil => simp [insert, Sorted]
  | cons b c ih =>
    obtain ⟨s, q⟩ := b
    have hb : ∀ x ∈ c, s < x.1 := fun x hx => (List.pairwise_cons.1 hc).1 x hx
    obtain ⟨h1, h2⟩ := ih (List.pairwise_cons.1 hc).2
    rw [insert]
    split_ifs with hts hst
    · refine ⟨List.pairwise_cons.2 ⟨fun x hx => ?_, hc⟩, fun a => ?_⟩
      · rcases List.mem_cons.1 hx with rfl | hx
        · exact hts
        · exact hts.trans (hb x hx)
      · rw [List.mem_cons, or_comm]
        refine or_congr Iff.rfl ⟨fun h => ⟨h, fun x hx => ?_⟩, fun h => h.1⟩
        rcases List.mem_cons.1 hx with rfl | hx
        · exact hts.ne'
        · exact (hts.trans (hb x hx)).ne'
    · refine ⟨List.pairwise_cons.2 ⟨fun x hx => ?_, h1⟩, fun a => ?_⟩
      · rcases mem_insert t p c x hx with rfl | hx
        · exact hst
        · exact hb x hx
      · rw [List.mem_cons, h2 a, List.mem_cons, or_assoc]
        refine or_congr Iff.rfl (or_congr Iff.rfl (and_congr Iff.rfl ?_))
        simp [List.forall_mem_cons, hst.ne]
    · have : t = s := le_antisymm (not_lt.1 hst) (not_lt.1 hts)
      subst this
      refine ⟨hc, fun a => ⟨Or.inl, fun h => ?_⟩⟩
      rcases h with h | ⟨-, h⟩
      · exact h
      · exact absurd rfl (h (t, q) (by simp))

/-- Inserting in a curve of an orbit changes that curve only, and fails when there is no such curve. -/
theorem C100_insert_at (i : ℕ) (t : T) (p : P) (o : List (List (T × P))) :
    (o.length ≤ i → insertAt i t p o = none) ∧
    ∀ c, o[i]? = some c → ∃ o', insertAt i t p o = some o' ∧ o'.length = o.length ∧ o'[i]? = some (insert t p c) ∧
      ∀ j ≠ i, o'[j]? = o[j]? := by
  refine ⟨fun h => if_neg (by omega), fun c hc => ⟨o.modify i (insert t p), ?_, by simp, ?_, fun j hj => ?_⟩⟩
  · exact if_pos (List.getElem?_eq_some_iff.1 hc).1
  · simp [hc]
  · rw [List.getElem?_modify]; simp only [if_neg (Ne.symm hj)]; cases o[j]? <;> rfl

/-- A point after all others is appended. -/
theorem insert_last (t : T) (p : P) (c : List (T × P)) (h : ∀ b ∈ c, b.1 < t) : insert t p c = c ++ [(t, p)] := by
  induction c with
  | nil => rfl
  | cons b c ih =>
    obtain ⟨s, q⟩ := b
    have hs : s < t := h (s, q) (by simp)
    rw [insert, if_neg hs.asymm, if_pos hs, ih (fun b hb => h b (by simp [hb]))]
    rfl

theorem foldl_insert (l : List (T × P)) :
    ∀ c : List (T × P), Sorted (c ++ l) → l.foldl (fun c a => insert a.1 a.2 c) c = c ++ l := by
  induction l with
  | nil => intro c _; simp
  | cons a l ih =>
    intro c hs
    have hlast : ∀ b ∈ c, b.1 < a.1 := fun b hb => (List.pairwise_append.1 hs).2.2 b hb a (by simp)
    rw [List.foldl_cons, insert_last a.1 a.2 c hlast, ih _ (by simpa [Sorted] using hs)]
    simp

/-! ## Schedules -/

theorem insertAll_shuffle {ts : List (List (T × P))} {w : List (ℕ × T × P)} (hw : Shuffle ts w) :
    ∀ o : List (List (T × P)), o.length = ts.length →
      insertAll w o = some (List.zipWith (fun c l => l.foldl (fun c a => insert a.1 a.2 c) c) o ts) := by
  induction hw with
  | @done ts h =>
    intro o ho
    rw [insertAll]
    congr 1
    apply List.ext_getElem
    · simp [ho]
    · intro i h1 h2
      have hi : i < ts.length := by omega
      simp [h _ (List.getElem_mem hi)]
  | @next ts w i a l hi _ ih =>
    intro o ho
    have hlt : i < ts.length := by
      by_contra hc
      simp [List.getElem?_eq_none (not_lt.1 hc)] at hi
    have hget : ts[i] = a :: l := by
      rw [List.getElem?_eq_getElem hlt] at hi
      exact Option.some.inj hi
    rw [insertAll, insertAt, if_pos (by omega), Option.bind_some, ih _ (by simp [ho])]
    congr 1
    apply List.ext_getElem
    · simp
    · intro j h1 h2
      simp only [List.getElem_zipWith, List.getElem_modify, List.getElem_set]
      by_cases hj : i = j
      · subst hj
        simp [hget]
      · simp [hj]

/-- Whatever the order in which the concurrent tasks insert their points, every curve of the orbit consists
of its initial point and the points of its task, in the order of time; nothing is lost or mixed up. -/
theorem C100_schedule {o ts : List (List (T × P))} {w : List (ℕ × T × P)} (hlen : o.length = ts.length)
    (hs : ∀ i (h : i < ts.length), Sorted (o[i] ++ ts[i])) (hw : Shuffle ts w) :
    insertAll w o = some (List.zipWith (· ++ ·) o ts) := by
  rw [insertAll_shuffle hw o hlen]
  congr 1
  apply List.ext_getElem
  · simp
  · intro i h1 h2
    have hi : i < ts.length := by simp at h1; omega
    simp only [List.getElem_zipWith]
    exact foldl_insert _ _ (hs i hi)

end Curve

/-- The orbit of the vector field simulator: for every initial point there is one curve, which holds the
auxiliary point `aux x` of the numerical solution `x` at the multiples of the step size, from zero to the
first one which is at or after the end, whatever the schedule of the threads.  The numerical solution need
not be accurate (`C100_second_order_fails`). -/
theorem C100_orbit {K : Type*} [Field K] [LinearOrder K] [IsStrictOrderedRing K] [Archimedean K] (f : K → V → V)
    (aux : V → P) (h tmax : K) (hh : 0 < h) (xs : List V) :
    ∃ n : ℕ, (n = 0 ∨ ((n : K) - 1) * h < tmax) ∧ tmax ≤ n * h ∧ ∀ fuel > n, ∃ tasks : List (List (K × V)),
      xs.mapM (march (· + ·) (fun a b : K => decide (a < b)) (f h) h tmax fuel 0) = some tasks ∧
      ∀ w, Shuffle (tasks.map fun l => l.map fun a => (a.1, aux a.2)) w →
        insertAll w (xs.map fun x => [(0, aux x)]) =
          some (xs.map fun x => (List.range (n + 1)).map fun k : ℕ => ((k : K) * h, aux ((f h)^[k] x))) := by
  have hex : ∃ n : ℕ, tmax ≤ n * h := by
    obtain ⟨n, hn⟩ := Archimedean.arch tmax hh
    exact ⟨n, by simpa [nsmul_eq_mul] using hn⟩
  classical
  let n := Nat.find hex
  have hn : tmax ≤ n * h := Nat.find_spec hex
  have hk : ∀ k < n, (k : K) * h < tmax := fun k hk => lt_of_not_ge (Nat.find_min hex hk)
  refine ⟨n, ?_, hn, fun fuel hf => ⟨xs.map fun x => trace (· + ·) (f h) h 0 x n, ?_, fun w hw => ?_⟩⟩
  · rcases Nat.eq_zero_or_pos n with h0 | h0
    · exact Or.inl h0
    · right
      have := hk (n - 1) (by omega)
      rwa [Nat.cast_sub (by omega), Nat.cast_one] at this
  · have hm : ∀ x, march (· + ·) (fun a b : K => decide (a < b)) (f h) h tmax fuel 0 x =
        some (trace (· + ·) (f h) h 0 x n) := fun x =>
      march_eq _ _ _ _ _ n 0 x fuel hf (fun k hk' => by simpa [clock_exact] using hk k hk')
        (by simpa [clock_exact] using hn)
    have he : march (· + ·) (fun a b : K => decide (a < b)) (f h) h tmax fuel 0 =
        fun x => some (trace (· + ·) (f h) h 0 x n) := funext hm
    rw [he]
    clear hm he
    induction xs with
    | nil => rfl
    | cons x xs ih => simp [List.mapM_cons, ih]
  · have hj : ∀ x : V, [((0 : K), aux x)] ++ (trace (· + ·) (f h) h 0 x n).map (fun a => (a.1, aux a.2)) =
        (List.range (n + 1)).map fun k : ℕ => ((k : K) * h, aux ((f h)^[k] x)) := by
      intro x
      rw [List.range_succ_eq_map, List.map_cons, List.map_map]
      simp [trace, clock_exact]
    rw [C100_schedule (by simp) ?_ hw]
    · congr 1
      apply List.ext_getElem
      · simp
      · intro i h1 h2
        simp only [List.getElem_zipWith, List.getElem_map, hj]
    · intro i hi
      simp only [List.getElem_map, hj]
      refine List.pairwise_map.2 (List.pairwise_lt_range.imp ?_)
      intro a b hab
      exact mul_lt_mul_of_pos_right (by exact_mod_cast hab) hh

end Verif.Simulator
