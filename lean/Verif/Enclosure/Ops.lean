import Verif.Enclosure.Model
import Verif.FunctionSet.Image

/-!
# Property C72, first part: operations on enclosures enclose

The points of an enclosure are triples of a state, a time and a dwell time.
-/

namespace Verif.Enclosure

open Ariadne Ariadne.Logical Verif.ConstraintSolver
open Verif.FunctionSet (over interBox subsetIvl)
open Ariadne.Ext (fin)

variable {n m k : ℕ} {K : Type*} [Field K] [LinearOrder K] [IsStrictOrderedRing K]

/-! ## Specification -/

/-- The parameter `p` satisfies the constraints. -/
def Holds (cs : List (Patch n K × Bounds K)) (p : Fin n → K) : Prop :=
  ∀ c ∈ cs, ∃ y, c.1.has p y ∧ c.2.Contains y

/-- The parameter `p` gives the state `x` at time `t` with dwell time `d`. -/
structure Encl.At (E : Encl n m K) (p : Fin n → K) (x : Fin m → K) (t d : K) : Prop where
  mem : Mem E.dom p
  fn : ∀ i, (E.fn i).has p (x i)
  time : E.time.has p t
  dwell : E.dwell.has p d
  cs : Holds E.cs p

/-- The points of an enclosure. -/
def Encl.pts (E : Encl n m K) : Set ((Fin m → K) × K × K) := {q | ∃ p, E.At p q.1 q.2.1 q.2.2}

/-- What the operations on function patches promise: they keep all values allowed by the arguments.  Embedding
adds no values, since it only adds variables the function does not depend on. -/
structure Calc.Sound (C : Calc K) : Prop where
  coord : ∀ {n : ℕ} {D : Box n K} {p} (i), Mem D p → (C.coord D i).has p (p i)
  const : ∀ {n : ℕ} {D : Box n K} {p} (c), Mem D p → (C.const D c).has p c
  create : ∀ {n : ℕ} {D : Box n K} {p} {f : Patch n K} {y}, Mem D p → f.has p y → (C.create D f).has p y
  compose : ∀ {n m : ℕ} {D : Box n K} {p} {h : Patch m K} {g : Fin m → Patch n K} {x y}, Mem D p →
    (∀ i, (g i).has p (x i)) → h.has x y → (C.compose D h g).has p y
  partialEval : ∀ {m : ℕ} {f : Patch (m + 1) K} {c x y}, f.has (ext x c) y → (C.partialEval f c).has x y
  embed : ∀ {n k : ℕ} {f : Patch n K} {p y} (q : Fin k → K), f.has p y → (C.embed k f).has (Fin.append p q) y
  embedLeft : ∀ {n k : ℕ} {f : Patch n K} {p y} (q : Fin k → K), f.has p y →
    (C.embedLeft k f).has (Fin.append q p) y
  embed_inv : ∀ {n k : ℕ} {f : Patch n K} {p y} {q : Fin k → K}, (C.embed k f).has (Fin.append p q) y → f.has p y
  embedLeft_inv : ∀ {n k : ℕ} {f : Patch n K} {p y} {q : Fin k → K}, (C.embedLeft k f).has (Fin.append q p) y →
    f.has p y
  restrict : ∀ {n : ℕ} {D : Box n K} {f : Patch n K} {p y}, Mem D p → f.has p y → (C.restrict D f).has p y
  add : ∀ {n : ℕ} {f g : Patch n K} {p a b}, f.has p a → g.has p b → (C.add f g).has p (a + b)
  sub : ∀ {n : ℕ} {f g : Patch n K} {p a b}, f.has p a → g.has p b → (C.sub f g).has p (a - b)
  addBounds : ∀ {n : ℕ} {f : Patch n K} {b : Bounds K} {p a c}, f.has p a → b.Contains c →
    (C.addBounds f b).has p (a + c)
  scale : ∀ {n : ℕ} {f : Patch n K} {c p a}, f.has p a → (C.scale f c).has p (a * c)
  clobber : ∀ {n : ℕ} {f : Patch n K} {p y}, f.has p y → ∃ c, (C.clobber f).has p c ∧ |y - c| ≤ C.error f
  clobber_embed : ∀ {n k : ℕ} {f : Patch n K} {p y} (q : Fin k → K), (C.clobber f).has p y →
    (C.clobber (C.embed k f)).has (Fin.append p q) y
  error_embed : ∀ {n : ℕ} (k : ℕ) (f : Patch n K), C.error (C.embed k f) = C.error f
  range : ∀ {n : ℕ} {D : Box n K} {f : Patch n K} {p y}, Mem D p → f.has p y → (C.range D f).Contains y
  hull : ∀ {n : ℕ} {f : Patch n K} {b : Bounds K} {B : Box n K} {p y}, Mem B p → f.has p y → b.Contains y →
    Mem (C.hull f b B) p

/-- Operations without any rounding: no further values are allowed. -/
structure Calc.Exact (C : Calc K) : Prop where
  coord : ∀ {n : ℕ} {D : Box n K} {p} {i y}, Mem D p → (C.coord D i).has p y → y = p i
  const : ∀ {n : ℕ} {D : Box n K} {p} {c y}, Mem D p → (C.const D c).has p y → y = c
  create : ∀ {n : ℕ} {D : Box n K} {p} {f : Patch n K} {y}, Mem D p → (C.create D f).has p y → f.has p y
  compose : ∀ {n m : ℕ} {D : Box n K} {p} {h : Patch m K} {g : Fin m → Patch n K} {y}, Mem D p →
    (C.compose D h g).has p y → ∃ x : Fin m → K, (∀ i, (g i).has p (x i)) ∧ h.has x y
  partialEval : ∀ {m : ℕ} {f : Patch (m + 1) K} {c x y}, (C.partialEval f c).has x y → f.has (ext x c) y
  restrict : ∀ {n : ℕ} {D : Box n K} {f : Patch n K} {p y}, Mem D p → (C.restrict D f).has p y → f.has p y
  add : ∀ {n : ℕ} {f g : Patch n K} {p y}, (C.add f g).has p y → ∃ a b, f.has p a ∧ g.has p b ∧ y = a + b
  sub : ∀ {n : ℕ} {f g : Patch n K} {p y}, (C.sub f g).has p y → ∃ a b, f.has p a ∧ g.has p b ∧ y = a - b
  addBounds : ∀ {n : ℕ} {f : Patch n K} {b : Bounds K} {p y}, (C.addBounds f b).has p y →
    ∃ a c, f.has p a ∧ b.Contains c ∧ y = a + c
  scale : ∀ {n : ℕ} {f : Patch n K} {c p y}, (C.scale f c).has p y → ∃ a, f.has p a ∧ y = a * c
  clobber : ∀ {n : ℕ} {f : Patch n K} {p c y}, (C.clobber f).has p c → |y - c| ≤ C.error f → f.has p y

/-- A patch with exactly one value at each point of its domain. -/
def Patch.IsFun (D : Box n K) (f : Patch n K) : Prop := ∀ p, Mem D p → ∃! y, f.has p y

/-- The state, time and dwell time of an enclosure are functions of the parameters. -/
structure Encl.Fun (E : Encl n m K) : Prop where
  fn : ∀ i, (E.fn i).IsFun E.dom
  time : E.time.IsFun E.dom
  dwell : E.dwell.IsFun E.dom

/-! ## Points with more coordinates -/

theorem mem_append {D : Box n K} {B : Box k K} {p : Fin n → K} {q : Fin k → K} :
    Mem (Fin.append D B) (Fin.append p q) ↔ Mem D p ∧ Mem B q := by
  constructor
  · intro h
    exact ⟨fun i => by simpa using h (Fin.castAdd k i), fun i => by simpa using h (Fin.natAdd n i)⟩
  · rintro ⟨h1, h2⟩ i
    refine Fin.addCases (fun i => ?_) (fun i => ?_) i
    · simpa using h1 i
    · simpa using h2 i

theorem append_cases (r : Fin (n + k) → K) : ∃ p q, r = Fin.append p q :=
  ⟨fun i => r (Fin.castAdd k i), fun i => r (Fin.natAdd n i), by
    funext i
    refine Fin.addCases (fun i => ?_) (fun i => ?_) i <;> simp⟩

theorem ext_cases (r : Fin (n + 1) → K) : ∃ p t, r = ext p t := by
  obtain ⟨p, q, e⟩ := append_cases r
  refine ⟨p, q 0, e.trans ?_⟩
  congr 1
  funext i
  rw [Subsingleton.elim i 0]

theorem has_append {f : Fin m → Patch n K} {g : Fin k → Patch n K} {x : Fin m → K} {y : Fin k → K} {p : Fin n → K} :
    (∀ i, (Fin.append f g i).has p (Fin.append x y i)) ↔ (∀ i, (f i).has p (x i)) ∧ ∀ i, (g i).has p (y i) := by
  constructor
  · intro h
    exact ⟨fun i => by simpa using h (Fin.castAdd k i), fun i => by simpa using h (Fin.natAdd m i)⟩
  · rintro ⟨h1, h2⟩ i
    refine Fin.addCases (fun i => ?_) (fun i => ?_) i
    · simpa using h1 i
    · simpa using h2 i

theorem mem_ext {D : Box n K} {b : Bounds K} {p : Fin n → K} {t : K} :
    Mem (ext D b) (ext p t) ↔ Mem D p ∧ b.Contains t := by
  rw [mem_append]
  exact ⟨fun h => ⟨h.1, h.2 0⟩, fun h => ⟨h.1, fun _ => h.2⟩⟩

theorem has_ext {f : Fin m → Patch n K} {g : Patch n K} {x : Fin m → K} {t : K} {p : Fin n → K} :
    (∀ i, (ext f g i).has p (ext x t i)) ↔ (∀ i, (f i).has p (x i)) ∧ g.has p t := by
  rw [has_append]
  exact ⟨fun h => ⟨h.1, h.2 0⟩, fun h => ⟨h.1, fun _ => h.2⟩⟩

theorem contains_between {a b x : K} : (between a b).Contains x ↔ a ≤ x ∧ x ≤ b := Iff.rfl

theorem holds_map {l : ℕ} {cs : List (Patch n K × Bounds K)} {F : Patch n K → Patch l K} {p : Fin n → K} {q : Fin l → K}
    (h : ∀ f : Patch n K, ∀ y, f.has p y → (F f).has q y) (hc : Holds cs p) :
    Holds (cs.map fun c => (F c.1, c.2)) q := by
  intro c hcs
  obtain ⟨c0, h0, rfl⟩ := List.mem_map.1 hcs
  obtain ⟨y, hy, hb⟩ := hc c0 h0
  exact ⟨y, h _ y hy, hb⟩

theorem holds_of_map {l : ℕ} {cs : List (Patch n K × Bounds K)} {F : Patch n K → Patch l K} {p : Fin n → K} {q : Fin l → K}
    (h : ∀ f : Patch n K, ∀ y, (F f).has q y → f.has p y) (hc : Holds (cs.map fun c => (F c.1, c.2)) q) :
    Holds cs p := by
  intro c hcs
  obtain ⟨y, hy, hb⟩ := hc _ (List.mem_map.2 ⟨c, hcs, rfl⟩)
  exact ⟨y, h _ y hy, hb⟩

theorem holds_append {a b : List (Patch n K × Bounds K)} {p : Fin n → K} :
    Holds (a ++ b) p ↔ Holds a p ∧ Holds b p := by
  constructor
  · intro h
    exact ⟨fun c hc => h c (List.mem_append_left _ hc), fun c hc => h c (List.mem_append_right _ hc)⟩
  · rintro ⟨h1, h2⟩ c hc
    exact (List.mem_append.1 hc).elim (h1 c) (h2 c)

theorem holds_single {c : Patch n K × Bounds K} {p : Fin n → K} :
    Holds [c] p ↔ ∃ y, c.1.has p y ∧ c.2.Contains y := by
  simp [Holds]

variable {C : Calc K} {E : Encl n m K}

/-! ## Construction -/

/-- **C72**: an enclosure made from a box contains every point of the box, at time zero. -/
theorem C72_of_box (hC : C.Sound) (d : Box n K) (x : Fin n → K) (hx : Mem d x) : (x, 0, 0) ∈ (ofBox C d).pts :=
  ⟨x, hx, fun i => hC.coord i hx, hC.const _ hx, hC.const _ hx, by simp [ofBox, Holds]⟩

theorem C72_of_box_exact (hC : C.Sound) (hX : C.Exact) (d : Box n K) :
    (ofBox C d).pts = {q | Mem d q.1 ∧ q.2.1 = 0 ∧ q.2.2 = 0} := by
  ext ⟨x, t, s⟩
  constructor
  · rintro ⟨p, h1, h2, h3, h4, -⟩
    have e : x = p := funext fun i => hX.coord h1 (h2 i)
    subst e
    exact ⟨h1, hX.const h1 h3, hX.const h1 h4⟩
  · rintro ⟨h1, h2, h3⟩
    simp only at h1 h2 h3
    subst h2; subst h3
    exact C72_of_box hC d x h1

/-- **C72**: an enclosure made from a bounded constraint set contains every point of the set, provided that
every number of a side of its domain is within the error of a number of the converted side. -/
theorem C72_of_set (hC : C.Sound) (a : Box n K) (d : Box n K) (e : Fin n → K) (cs : List (Patch n K × Bounds K))
    (hd : ∀ i y, (a i).Contains y → ∃ s, (d i).Contains s ∧ |y - s| ≤ e i)
    (x : Fin n → K) (hx : Mem a x) (hcs : Holds cs x) : (x, 0, 0) ∈ (ofSet C d e cs).pts := by
  choose p hp he using fun i => hd i (x i) (hx i)
  have hp' : Mem d p := hp
  have hf : ∀ i, (C.addBounds (C.coord d i) (between (-e i) (e i))).has p (x i) := fun i => by
    have := hC.addBounds (b := between (-e i) (e i)) (c := x i - p i) (hC.coord i hp')
      (contains_between.2 (abs_le.1 (he i)))
    simpa using this
  refine ⟨p, hp', hf, hC.const _ hp', hC.const _ hp', ?_⟩
  intro c hc
  obtain ⟨c0, h0, rfl⟩ := List.mem_map.1 hc
  obtain ⟨y, hy, hb⟩ := hcs c0 h0
  exact ⟨y, hC.compose hp' hf hy, hb⟩

/-! ## Maps -/

theorem at_map (hC : C.Sound) {f : Fin k → Patch m K} {p x t d} (h : E.At p x t d) {y : Fin k → K}
    (hy : ∀ i, (f i).has x (y i)) : (E.applyMap C f).At p y t 0 :=
  ⟨h.mem, fun i => hC.compose h.mem h.fn (hy i), h.time, hC.const _ h.mem, h.cs⟩

theorem fun_vec {g : Fin m → Patch n K} {D : Box n K} (hg : ∀ i, (g i).IsFun D) {p} (hp : Mem D p) {x x' : Fin m → K}
    (h1 : ∀ i, (g i).has p (x i)) (h2 : ∀ i, (g i).has p (x' i)) : x = x' :=
  funext fun i => (hg i p hp).unique (h1 i) (h2 i)

theorem fun_choose {g : Fin m → Patch n K} {D : Box n K} (hg : ∀ i, (g i).IsFun D) {p} (hp : Mem D p) :
    ∃ x : Fin m → K, ∀ i, (g i).has p (x i) :=
  ⟨fun i => (hg i p hp).choose, fun i => (hg i p hp).choose_spec.1⟩

/-- Values of a composition with functions. -/
theorem compose_fun (hX : C.Exact) {D : Box n K} {h : Patch k K} {g : Fin k → Patch n K} (hg : ∀ i, (g i).IsFun D)
    {p} (hp : Mem D p) {x : Fin k → K} (hx : ∀ i, (g i).has p (x i)) {y} (hy : (C.compose D h g).has p y) : h.has x y := by
  obtain ⟨x', h1, h2⟩ := hX.compose hp hy
  rwa [fun_vec hg hp hx h1]

theorem ext_isFun {D : Box n K} {f : Fin m → Patch n K} {g : Patch n K} (hf : ∀ i, (f i).IsFun D) (hg : g.IsFun D) :
    ∀ i, (ext f g i).IsFun D := by
  intro i
  refine Fin.addCases (fun i => ?_) (fun i => ?_) i
  · simpa using hf i
  · simpa using hg

/-- **C72**: the image of an enclosure under a validated map contains the images of all its states, at the same
time, with dwell time zero. -/
theorem C72_apply_map (hC : C.Sound) (f : Fin k → Patch m K) (q) (hq : q ∈ E.pts) (y : Fin k → K)
    (hy : ∀ i, (f i).has q.1 (y i)) : (y, q.2.1, 0) ∈ (E.applyMap C f).pts :=
  hq.imp fun _ h => at_map hC h hy

/-- **C72**: ... and nothing else, if the operations are exact. -/
theorem C72_apply_map_exact (hC : C.Sound) (hX : C.Exact) (hE : E.Fun) (f : Fin k → Patch m K) :
    (E.applyMap C f).pts = {r | ∃ q ∈ E.pts, (∀ i, (f i).has q.1 (r.1 i)) ∧ r.2.1 = q.2.1 ∧ r.2.2 = 0} := by
  ext ⟨y, t, d⟩
  constructor
  · rintro ⟨p, h⟩
    have hm : Mem E.dom p := h.mem
    obtain ⟨x, hx⟩ := fun_choose hE.fn hm
    obtain ⟨d0, hd0, -⟩ := hE.dwell p hm
    exact ⟨(x, t, d0), ⟨p, hm, hx, h.time, hd0, h.cs⟩, fun i => compose_fun hX hE.fn hm hx (h.fn i), rfl,
      hX.const hm h.dwell⟩
  · rintro ⟨q, hq, hy, e1, e2⟩
    simp only at e1 e2 hy
    subst e1; subst e2
    exact C72_apply_map hC f q hq y hy

/-- **C72**: a step of a discrete-time system advances the time by one. -/
theorem C72_map_step (hC : C.Sound) (f : Fin m → Patch m K) (q) (hq : q ∈ E.pts) (y : Fin m → K)
    (hy : ∀ i, (f i).has q.1 (y i)) : (y, q.2.1 + 1, 0) ∈ (E.applyMapStep C f).pts := by
  obtain ⟨p, h⟩ := hq
  have h' := at_map hC h hy
  exact ⟨p, h'.mem, h'.fn, hC.addBounds h'.time (contains_between.2 ⟨le_rfl, le_rfl⟩), h'.dwell, h'.cs⟩

theorem C72_map_step_exact (hC : C.Sound) (hX : C.Exact) (hE : E.Fun) (f : Fin m → Patch m K) :
    (E.applyMapStep C f).pts = {r | ∃ q ∈ E.pts, (∀ i, (f i).has q.1 (r.1 i)) ∧ r.2.1 = q.2.1 + 1 ∧ r.2.2 = 0} := by
  ext ⟨y, t, d⟩
  constructor
  · rintro ⟨p, h⟩
    obtain ⟨a, c, ha, hc, e⟩ := hX.addBounds h.time
    have h1 : (y, a, d) ∈ (E.applyMap C f).pts := ⟨p, h.mem, h.fn, ha, h.dwell, h.cs⟩
    rw [C72_apply_map_exact hC hX hE] at h1
    obtain ⟨q, hq, hy, e1, e2⟩ := h1
    obtain ⟨c1, c2⟩ := contains_between.1 hc
    refine ⟨q, hq, hy, ?_, e2⟩
    simp only at e e1 ⊢
    rw [e, e1, le_antisymm c2 c1]
  · rintro ⟨q, hq, hy, e1, e2⟩
    simp only at e1 e2 hy
    subst e1; subst e2
    exact C72_map_step hC f q hq y hy

/-! ## Flows -/

/-- **C72**: after a step of length `h` the enclosure contains the state reached by the flow from each of its
states, at a time and dwell time later by `h`. -/
theorem C72_fixed_evolve (hC : C.Sound) (patch : Bool) (φ : Fin m → Patch (m + 1) K) (h : K) (q) (hq : q ∈ E.pts)
    (y : Fin m → K) (hy : ∀ i, (φ i).has (ext q.1 h) (y i)) :
    (y, q.2.1 + h, q.2.2 + h) ∈ (E.applyFixedEvolveStep C patch φ h).pts := by
  obtain ⟨p, g⟩ := hq
  refine ⟨p, g.mem, fun i => ?_, hC.addBounds g.time (contains_between.2 ⟨le_rfl, le_rfl⟩),
    hC.addBounds g.dwell (contains_between.2 ⟨le_rfl, le_rfl⟩), g.cs⟩
  simp only [Encl.applyFixedEvolveStep]
  cases patch
  · exact hC.compose g.mem (has_ext.2 ⟨g.fn, hC.const h g.mem⟩) (hy i)
  · exact hC.compose g.mem g.fn (hC.partialEval (hy i))

theorem const_isFun (hC : C.Sound) (hX : C.Exact) (D : Box n K) (c : K) : (C.const D c).IsFun D := fun _ hp =>
  ⟨c, hC.const c hp, fun _ hy => hX.const hp hy⟩

theorem C72_fixed_evolve_exact (hC : C.Sound) (hX : C.Exact) (hE : E.Fun) (patch : Bool)
    (φ : Fin m → Patch (m + 1) K) (h : K) :
    (E.applyFixedEvolveStep C patch φ h).pts =
      {r | ∃ q ∈ E.pts, (∀ i, (φ i).has (ext q.1 h) (r.1 i)) ∧ r.2.1 = q.2.1 + h ∧ r.2.2 = q.2.2 + h} := by
  ext ⟨y, t, d⟩
  constructor
  · rintro ⟨p, g⟩
    have hm : Mem E.dom p := g.mem
    obtain ⟨x, hx⟩ := fun_choose hE.fn hm
    obtain ⟨t0, c, ht0, hc, e⟩ := hX.addBounds g.time
    obtain ⟨d0, c', hd0, hc', e'⟩ := hX.addBounds g.dwell
    obtain ⟨c1, c2⟩ := contains_between.1 hc
    obtain ⟨c3, c4⟩ := contains_between.1 hc'
    refine ⟨(x, t0, d0), ⟨p, hm, hx, ht0, hd0, g.cs⟩, fun i => ?_, ?_, ?_⟩
    · have := g.fn i
      simp only [Encl.applyFixedEvolveStep] at this
      cases patch
      · exact compose_fun hX (ext_isFun hE.fn (const_isFun hC hX _ h)) hm (has_ext.2 ⟨hx, hC.const h hm⟩) this
      · exact hX.partialEval (compose_fun hX hE.fn hm hx this)
    · simp only at e ⊢
      rw [e, le_antisymm c2 c1]
    · simp only at e' ⊢
      rw [e', le_antisymm c4 c3]
  · rintro ⟨q, hq, hy, e1, e2⟩
    simp only at e1 e2 hy
    subst e1; subst e2
    exact C72_fixed_evolve hC patch φ h q hq y hy

theorem at_evolve (hC : C.Sound) {φ : Fin m → Patch (m + 1) K} {τ : Patch n K} {p x t d s} (h : E.At p x t d)
    (hs : τ.has p s) {y : Fin m → K} (hy : ∀ i, (φ i).has (ext x s) (y i)) :
    (E.evolveFor C φ τ).At p y (t + s) (d + s) :=
  ⟨h.mem, fun i => hC.compose h.mem (has_ext.2 ⟨h.fn, hs⟩) (hy i), hC.add h.time hs, hC.add h.dwell hs, h.cs⟩

theorem at_evolve_exact (hX : C.Exact) (hE : E.Fun) {φ : Fin m → Patch (m + 1) K} {τ : Patch n K}
    (hτ : τ.IsFun E.dom) {p y t' d'} (h : (E.evolveFor C φ τ).At p y t' d') :
    ∃ x t d s, E.At p x t d ∧ τ.has p s ∧ (∀ i, (φ i).has (ext x s) (y i)) ∧ t' = t + s ∧ d' = d + s := by
  have hm : Mem E.dom p := h.mem
  obtain ⟨x, hx⟩ := fun_choose hE.fn hm
  obtain ⟨s, hs, hu⟩ := hτ p hm
  obtain ⟨t, s1, ht, hs1, e1⟩ := hX.add h.time
  obtain ⟨d, s2, hd, hs2, e2⟩ := hX.add h.dwell
  refine ⟨x, t, d, s, ⟨hm, hx, ht, hd, h.cs⟩, hs, fun i => ?_, ?_, ?_⟩
  · exact compose_fun hX (ext_isFun hE.fn hτ) hm (has_ext.2 ⟨hx, hs⟩) (h.fn i)
  · rw [e1, hu s1 hs1]
  · rw [e2, hu s2 hs2]

/-- **C72**: evolution for a time depending on the state. -/
theorem C72_space_evolve (hC : C.Sound) (φ : Fin m → Patch (m + 1) K) (τ : Patch m K) (q) (hq : q ∈ E.pts) (s : K)
    (hs : τ.has q.1 s) (y : Fin m → K) (hy : ∀ i, (φ i).has (ext q.1 s) (y i)) :
    (y, q.2.1 + s, q.2.2 + s) ∈ (E.applySpaceEvolveStep C φ τ).pts :=
  hq.imp fun _ h => at_evolve hC h (hC.compose h.mem h.fn hs) hy

theorem compose_isFun (hC : C.Sound) (hX : C.Exact) {D : Box n K} {h : Patch k K} {g : Fin k → Patch n K}
    (hg : ∀ i, (g i).IsFun D) (hh : ∀ x, ∃! y, h.has x y) : (C.compose D h g).IsFun D := fun p hp => by
  obtain ⟨x, hx⟩ := fun_choose hg hp
  obtain ⟨y, hy, hu⟩ := hh x
  exact ⟨y, hC.compose hp hx hy, fun y' hy' => hu y' (compose_fun hX hg hp hx hy')⟩

theorem C72_space_evolve_exact (hC : C.Sound) (hX : C.Exact) (hE : E.Fun) (φ : Fin m → Patch (m + 1) K) (τ : Patch m K)
    (hτ : ∀ x, ∃! s, τ.has x s) :
    (E.applySpaceEvolveStep C φ τ).pts =
      {r | ∃ q ∈ E.pts, ∃ s, τ.has q.1 s ∧ (∀ i, (φ i).has (ext q.1 s) (r.1 i)) ∧ r.2.1 = q.2.1 + s ∧
        r.2.2 = q.2.2 + s} := by
  ext ⟨y, t, d⟩
  constructor
  · rintro ⟨p, h⟩
    obtain ⟨x, t0, d0, s, h1, h2, h3, h4, h5⟩ := at_evolve_exact hX hE (compose_isFun hC hX hE.fn hτ) h
    exact ⟨(x, t0, d0), ⟨p, h1⟩, s, compose_fun hX hE.fn h1.mem h1.fn h2, h3, h4, h5⟩
  · rintro ⟨q, hq, s, hs, hy, e1, e2⟩
    simp only at e1 e2 hy
    subst e1; subst e2
    exact C72_space_evolve hC φ τ q hq s hs y hy

/-- **C72**: evolution for a time depending on the state and the time. -/
theorem C72_spacetime_evolve (hC : C.Sound) (φ : Fin m → Patch (m + 1) K) (τ : Patch (m + 1) K) (q) (hq : q ∈ E.pts)
    (s : K) (hs : τ.has (ext q.1 q.2.1) s) (y : Fin m → K) (hy : ∀ i, (φ i).has (ext q.1 s) (y i)) :
    (y, q.2.1 + s, q.2.2 + s) ∈ (E.applySpacetimeEvolveStep C φ τ).pts :=
  hq.imp fun _ h => at_evolve hC h (hC.compose h.mem (has_ext.2 ⟨h.fn, h.time⟩) hs) hy

theorem C72_spacetime_evolve_exact (hC : C.Sound) (hX : C.Exact) (hE : E.Fun) (φ : Fin m → Patch (m + 1) K)
    (τ : Patch (m + 1) K) (hτ : ∀ x, ∃! s, τ.has x s) :
    (E.applySpacetimeEvolveStep C φ τ).pts =
      {r | ∃ q ∈ E.pts, ∃ s, τ.has (ext q.1 q.2.1) s ∧ (∀ i, (φ i).has (ext q.1 s) (r.1 i)) ∧ r.2.1 = q.2.1 + s ∧
        r.2.2 = q.2.2 + s} := by
  ext ⟨y, t, d⟩
  constructor
  · rintro ⟨p, h⟩
    obtain ⟨x, t0, d0, s, h1, h2, h3, h4, h5⟩ :=
      at_evolve_exact hX hE (compose_isFun hC hX (ext_isFun hE.fn hE.time) hτ) h
    exact ⟨(x, t0, d0), ⟨p, h1⟩, s,
      compose_fun hX (ext_isFun hE.fn hE.time) h1.mem (has_ext.2 ⟨h1.fn, h1.time⟩) h2, h3, h4, h5⟩
  · rintro ⟨q, hq, s, hs, hy, e1, e2⟩
    simp only at e1 e2 hy
    subst e1; subst e2
    exact C72_spacetime_evolve hC φ τ q hq s hs y hy

/-- **C72**: evolution for a time depending on the parameter. -/
theorem C72_parameter_evolve (hC : C.Sound) (φ : Fin m → Patch (m + 1) K) (τ : Patch n K) (p x t d)
    (h : E.At p x t d) (s : K) (hs : τ.has p s) (y : Fin m → K) (hy : ∀ i, (φ i).has (ext x s) (y i)) :
    (E.applyParameterEvolveStep C φ τ).At p y (t + s) (d + s) :=
  at_evolve hC h (hC.create h.mem hs) hy

theorem create_isFun (hC : C.Sound) (hX : C.Exact) {D : Box n K} {f : Patch n K} (hf : f.IsFun D) :
    (C.create D f).IsFun D := fun p hp => by
  obtain ⟨y, hy, hu⟩ := hf p hp
  exact ⟨y, hC.create hp hy, fun y' hy' => hu y' (hX.create hp hy')⟩

theorem C72_parameter_evolve_exact (hC : C.Sound) (hX : C.Exact) (hE : E.Fun) (φ : Fin m → Patch (m + 1) K)
    (τ : Patch n K) (hτ : τ.IsFun E.dom) (p y t' d') :
    (E.applyParameterEvolveStep C φ τ).At p y t' d' ↔
      ∃ x t d s, E.At p x t d ∧ τ.has p s ∧ (∀ i, (φ i).has (ext x s) (y i)) ∧ t' = t + s ∧ d' = d + s := by
  constructor
  · intro h
    obtain ⟨x, t, d, s, h1, h2, h3⟩ := at_evolve_exact hX hE (create_isFun hC hX hτ) h
    exact ⟨x, t, d, s, h1, hX.create h1.mem h2, h3⟩
  · rintro ⟨x, t, d, s, h1, h2, h3, rfl, rfl⟩
    exact C72_parameter_evolve hC φ τ p x t d h1 s h2 y h3

/-- **C72**: evolution until a time depending on the parameter: the new time is the finishing time. -/
theorem C72_finishing_evolve (hC : C.Sound) (φ : Fin m → Patch (m + 1) K) (ω : Patch n K) (p x t d)
    (h : E.At p x t d) (w : K) (hw : ω.has p w) (y : Fin m → K) (hy : ∀ i, (φ i).has (ext x (w - t)) (y i)) :
    (E.applyFinishingParameterEvolveStep C φ ω).At p y w (d + (w - t)) :=
  have hw' := hC.create h.mem hw
  ⟨h.mem, fun i => hC.compose h.mem (has_ext.2 ⟨h.fn, hC.sub hw' h.time⟩) (hy i), hw',
    hC.add h.dwell (hC.sub hw' h.time), h.cs⟩

theorem sub_isFun (hC : C.Sound) (hX : C.Exact) {D : Box n K} {f g : Patch n K} (hf : f.IsFun D) (hg : g.IsFun D) :
    (C.sub f g).IsFun D := fun p hp => by
  obtain ⟨a, ha, hu⟩ := hf p hp
  obtain ⟨b, hb, hv⟩ := hg p hp
  refine ⟨a - b, hC.sub ha hb, fun y hy => ?_⟩
  obtain ⟨a', b', h1, h2, e⟩ := hX.sub hy
  rw [e, hu a' h1, hv b' h2]

theorem C72_finishing_evolve_exact (hC : C.Sound) (hX : C.Exact) (hE : E.Fun) (φ : Fin m → Patch (m + 1) K)
    (ω : Patch n K) (hω : ω.IsFun E.dom) (p y w d') :
    (E.applyFinishingParameterEvolveStep C φ ω).At p y w d' ↔
      ∃ x t d, E.At p x t d ∧ ω.has p w ∧ (∀ i, (φ i).has (ext x (w - t)) (y i)) ∧ d' = d + (w - t) := by
  constructor
  · intro h
    have hm : Mem E.dom p := h.mem
    obtain ⟨x, hx⟩ := fun_choose hE.fn hm
    obtain ⟨t, ht, hu⟩ := hE.time p hm
    have hw : (C.create E.dom ω).has p w := h.time
    obtain ⟨d, s, hd, hs, e⟩ := hX.add h.dwell
    obtain ⟨w2, t2, hw2, ht2, e2⟩ := hX.sub hs
    have ew : w2 = w := (create_isFun hC hX hω p hm).unique hw2 hw
    have et : t2 = t := hu t2 ht2
    subst ew; subst et
    refine ⟨x, t2, d, ⟨hm, hx, ht, hd, h.cs⟩, hX.create hm hw, fun i => ?_, by rw [e, e2]⟩
    exact compose_fun hX (ext_isFun hE.fn (sub_isFun hC hX (create_isFun hC hX hω) hE.time)) hm
      (has_ext.2 ⟨hx, hC.sub hw ht⟩) (h.fn i)
  · rintro ⟨x, t, d, h1, h2, h3, rfl⟩
    exact C72_finishing_evolve hC φ ω p x t d h1 w h2 y h3

/-! ## Reachable sets -/

/-- **C72**: the set reached within the time `elps`, for the parameter of the starting state.  The dwell time is
that of the step alone. -/
theorem C72_parameter_reach (hC : C.Sound) (φ : Flow m K) (elps : Patch n K) (p x t d) (h : E.At p x t d) (e r : K)
    (he : elps.has p e) (h0 : 0 ≤ r) (h1 : r ≤ φ.h) (hr : r ≤ e) (y : Fin m → K)
    (hy : ∀ i, (φ.fn i).has (ext x r) (y i)) :
    (E.applyParameterReachStep C φ elps).At (ext p r) y (t + r) r := by
  have hm : Mem (ext E.dom (between 0 φ.h)) (ext p r) := mem_ext.2 ⟨h.mem, h0, h1⟩
  have hc : (C.coord (ext E.dom (between 0 φ.h)) (Fin.natAdd n 0)).has (ext p r) r := by
    simpa [ext] using hC.coord (Fin.natAdd n 0) hm
  have h2 : ∀ i, ((E.newVariable C (between 0 φ.h)).fn i).has (ext p r) (ext x r i) :=
    has_ext.2 ⟨fun i => hC.embed _ (h.fn i), hc⟩
  have hcs : Holds (E.cs.map fun c => (C.embed 1 c.1, c.2)) (ext p r) := holds_map (fun f y hf => hC.embed _ hf) h.cs
  have hd : (C.add (C.const (ext E.dom (between 0 φ.h)) 0)
      (C.coord (ext E.dom (between 0 φ.h)) (Fin.natAdd n 0))).has (ext p r) r := by
    simpa using hC.add (hC.const 0 hm) hc
  have h3 : ∀ i, (C.compose (ext E.dom (between 0 φ.h)) (φ.fn i) (E.newVariable C (between 0 φ.h)).fn).has (ext p r) (y i) :=
    fun i => hC.compose hm h2 (hy i)
  have h4 : (C.add (C.embed 1 E.time) (C.coord (ext E.dom (between 0 φ.h)) (Fin.natAdd n 0))).has (ext p r) (t + r) :=
    hC.add (hC.embed _ h.time) hc
  simp only [Encl.applyParameterReachStep]
  split_ifs
  · refine ⟨hm, h3, h4, hd, holds_append.2 ⟨hcs, holds_single.2 ⟨r - e, ?_, trivial, ?_⟩⟩⟩
    · exact hC.create hm (hC.sub hc (hC.embed _ (hC.create h.mem he)))
    · exact sub_nonpos.2 hr
  · exact ⟨hm, h3, h4, hd, hcs⟩

theorem embed_isFun (hC : C.Sound) {D : Box n K} {B : Box k K} {f : Patch n K} (hf : f.IsFun D) :
    (C.embed k f).IsFun (Fin.append D B) := fun r hr => by
  obtain ⟨p, q, rfl⟩ := append_cases r
  obtain ⟨y, hy, hu⟩ := hf p (mem_append.1 hr).1
  exact ⟨y, hC.embed q hy, fun y' hy' => hu y' (hC.embed_inv hy')⟩

theorem coord_isFun (hC : C.Sound) (hX : C.Exact) (D : Box n K) (i : Fin n) : (C.coord D i).IsFun D := fun p hp =>
  ⟨p i, hC.coord i hp, fun _ hy => hX.coord hp hy⟩

theorem C72_parameter_reach_exact (hC : C.Sound) (hX : C.Exact) (hE : E.Fun) (φ : Flow m K) (hφ : φ.t0 < φ.h)
    (elps : Patch n K) (p' y t' d') :
    (E.applyParameterReachStep C φ elps).At p' y t' d' ↔
      ∃ p x t d e r, p' = ext p r ∧ E.At p x t d ∧ elps.has p e ∧ 0 ≤ r ∧ r ≤ φ.h ∧ r ≤ e ∧
        (∀ i, (φ.fn i).has (ext x r) (y i)) ∧ t' = t + r ∧ d' = r := by
  constructor
  · intro h
    simp only [Encl.applyParameterReachStep, if_pos hφ] at h
    obtain ⟨p, r, rfl⟩ := ext_cases p'
    have hm : Mem (ext E.dom (between 0 φ.h)) (ext p r) := h.mem
    obtain ⟨hp, h0, h1⟩ := mem_ext.1 hm
    obtain ⟨x, hx⟩ := fun_choose hE.fn hp
    have hc : (C.coord (ext E.dom (between 0 φ.h)) (Fin.natAdd n 0)).has (ext p r) r := by
      simpa [ext] using hC.coord (Fin.natAdd n 0) hm
    have hr : ∀ s, (C.coord (ext E.dom (between 0 φ.h)) (Fin.natAdd n 0)).has (ext p r) s → s = r := fun s hs => by
      simpa [ext] using hX.coord hm hs
    obtain ⟨hcs, hl⟩ := holds_append.1 h.cs
    obtain ⟨z, hz, -, hz0⟩ := holds_single.1 hl
    obtain ⟨s, e, hs, he, rfl⟩ := hX.sub (hX.create hm hz)
    obtain ⟨t, s1, ht, hs1, e1⟩ := hX.add h.time
    obtain ⟨d1, s2, hd1, hs2, e2⟩ := hX.add h.dwell
    obtain ⟨d, hd, -⟩ := hE.dwell p hp
    have hz1 : s - e ≤ 0 := hz0
    refine ⟨p, x, t, d, e, r, rfl, ⟨hp, hx, hC.embed_inv ht, hd, holds_of_map (fun f y hf => hC.embed_inv hf) hcs⟩,
      hX.create hp (hC.embed_inv he), h0, h1, ?_, fun i => ?_, ?_, ?_⟩
    · rw [hr s hs] at hz1
      exact sub_nonpos.1 hz1
    · exact compose_fun hX (ext_isFun (fun i => embed_isFun hC (hE.fn i)) (coord_isFun hC hX _ _)) hm
        (has_ext.2 ⟨fun i => hC.embed _ (hx i), hc⟩) (h.fn i)
    · rw [e1, hr s1 hs1]
    · rw [e2, hr s2 hs2, hX.const hm hd1, zero_add]
  · rintro ⟨p, x, t, d, e, r, rfl, h, he, h0, h1, hr, hy, rfl, rfl⟩
    exact C72_parameter_reach hC φ elps p x t d h e _ he h0 h1 hr y hy

/-- **C72**: the set reached within a step contains every state on the flow from each state of the enclosure, at
its time. -/
theorem C72_full_reach (hC : C.Sound) (φ : Flow m K) (q) (hq : q ∈ E.pts) (r : K) (h0 : 0 ≤ r) (h1 : r ≤ φ.h)
    (y : Fin m → K) (hy : ∀ i, (φ.fn i).has (ext q.1 r) (y i)) :
    (y, q.2.1 + r, r) ∈ (E.applyFullReachStep C φ).pts := by
  obtain ⟨p, h⟩ := hq
  exact ⟨_, C72_parameter_reach hC φ _ p _ _ _ h φ.h r (hC.const _ h.mem) h0 h1 h1 y hy⟩

theorem C72_full_reach_exact (hC : C.Sound) (hX : C.Exact) (hE : E.Fun) (φ : Flow m K) (hφ : φ.t0 < φ.h) :
    (E.applyFullReachStep C φ).pts =
      {s | ∃ q ∈ E.pts, ∃ r, 0 ≤ r ∧ r ≤ φ.h ∧ (∀ i, (φ.fn i).has (ext q.1 r) (s.1 i)) ∧ s.2.1 = q.2.1 + r ∧
        s.2.2 = r} := by
  ext ⟨y, t', d'⟩
  constructor
  · rintro ⟨p', h⟩
    obtain ⟨p, x, t, d, e, r, -, h1, -, h2, h3, -, h4, h5, h6⟩ := (C72_parameter_reach_exact hC hX hE φ hφ _ _ _ _ _).1 h
    exact ⟨(x, t, d), ⟨p, h1⟩, r, h2, h3, h4, h5, h6⟩
  · rintro ⟨q, hq, r, h0, h1, hy, e1, e2⟩
    simp only at e1 e2 hy
    subst e1; subst e2
    exact C72_full_reach hC φ q hq _ h0 h1 y hy

/-- **C72**: the set reached within a time depending on the state and the time. -/
theorem C72_spacetime_reach (hC : C.Sound) (φ : Flow m K) (elps : Patch (m + 1) K) (q) (hq : q ∈ E.pts) (e r : K)
    (he : elps.has (ext q.1 q.2.1) e) (h0 : 0 ≤ r) (h1 : r ≤ φ.h) (hr : r ≤ e)
    (y : Fin m → K) (hy : ∀ i, (φ.fn i).has (ext q.1 r) (y i)) :
    (y, q.2.1 + r, r) ∈ (E.applySpacetimeReachStep C φ elps).pts := by
  obtain ⟨p, h⟩ := hq
  exact ⟨_, C72_parameter_reach hC φ _ p _ _ _ h e r (hC.compose h.mem (has_ext.2 ⟨h.fn, h.time⟩) he) h0 h1 hr y hy⟩

theorem C72_spacetime_reach_exact (hC : C.Sound) (hX : C.Exact) (hE : E.Fun) (φ : Flow m K) (hφ : φ.t0 < φ.h)
    (elps : Patch (m + 1) K) :
    (E.applySpacetimeReachStep C φ elps).pts =
      {s | ∃ q ∈ E.pts, ∃ e r, elps.has (ext q.1 q.2.1) e ∧ 0 ≤ r ∧ r ≤ φ.h ∧ r ≤ e ∧
        (∀ i, (φ.fn i).has (ext q.1 r) (s.1 i)) ∧ s.2.1 = q.2.1 + r ∧ s.2.2 = r} := by
  ext ⟨y, t', d'⟩
  constructor
  · rintro ⟨p', h⟩
    obtain ⟨p, x, t, d, e, r, -, h1, he, h2, h3, hr, h4, h5, h6⟩ :=
      (C72_parameter_reach_exact hC hX hE φ hφ _ _ _ _ _).1 h
    exact ⟨(x, t, d), ⟨p, h1⟩, e, r,
      compose_fun hX (ext_isFun hE.fn hE.time) h1.mem (has_ext.2 ⟨h1.fn, h1.time⟩) he, h2, h3, hr, h4, h5, h6⟩
  · rintro ⟨q, hq, e, r, he, h0, h1, hr, hy, e1, e2⟩
    simp only at e1 e2 hy
    subst e1; subst e2
    exact C72_spacetime_reach hC φ elps q hq e _ he h0 h1 hr y hy

end Verif.Enclosure
