import Verif.Thermal.Props

/-!
# Temperatures with resistances that depend on them

Properties C113 (what is reported settled and balances) and C114 (the report).
-/

set_option linter.unusedSectionVars false
set_option linter.unusedSimpArgs false
set_option linter.unusedVariables false

namespace Verif.Thermal

open Finset

variable {K : Type} [Field K] [LinearOrder K] [IsStrictOrderedRing K] {n : Nat}

/-! ## C113 -/

/-- The nodes of a network at temperatures: nothing else of them changes. -/
def AtTemperatures (nodes nodes' : List (Node K)) (t : Vec nodes.length K) : Prop :=
  nodes'.length = nodes.length ∧ ∀ i : Fin nodes.length, nodes'[i.val]? = some { nodes[i] with temperature := t i }

theorem atTemperatures (nodes : List (Node K)) (t : Vec nodes.length K) : AtTemperatures nodes (withTemperatures nodes t) t := by
  refine ⟨by simp [withTemperatures], fun i => ?_⟩
  simp [withTemperatures]

theorem iteration_ended {cfg : Config K} {air : Air K} {given : Fin n → Option K} {power old : Vec n K} {first : Bool}
    {es : List (Element K)} {r : Ended n K} (h : iteration cfg air given power first es old = .ended r) :
    ∃ (es' : List (Element K)) (ls : List (Link n K)) (s : Vec n K), (if first then some es else recalculateAll cfg air old es) = some es' ∧
      es'.mapM (toLink n) = some ls ∧ solveOnce ls given power = .ok s ∧
      r = ⟨es', if first then s else relax given old s, close cfg.tolerance old (if first then s else relax given old s), 1⟩ := by
  unfold iteration at h
  split at h
  · simp at h
  · rename_i es' hes
    split at h
    · simp at h
    · rename_i ls hls
      split at h
      · rename_i s hs
        simp only [Loop.ended.injEq] at h
        exact ⟨es', ls, s, hes, hls, hs, h.symm⟩
      · simp at h
      · simp at h

theorem loop_inv {cfg : Config K} {air : Air K} {given : Fin n → Option K} {power : Vec n K} (P : Vec n K → Prop)
    (hP : ∀ first es old r, P old → iteration cfg air given power first es old = .ended r → P r.temperatures) :
    ∀ (k done : Nat) (es : List (Element K)) (t : Vec n K) (r : Ended n K), P t → loop cfg air given power k done es t = .ended r →
      P r.temperatures := by
  intro k
  induction k with
  | zero => intro done es t r ht h; simp [loop] at h; rw [← h]; exact ht
  | succ k ih =>
    intro done es t r ht h
    rw [loop] at h
    split at h
    · simp at h
    · rename_i r' hr'
      have h1 := hP _ _ _ _ ht hr'
      split at h
      · simp at h; rw [← h]; exact h1
      · exact ih _ _ _ _ h1 h

/-- The loop ends after no more iterations than allowed; if it did not settle, after as many as allowed. -/
theorem loop_count {cfg : Config K} {air : Air K} {given : Fin n → Option K} {power : Vec n K} :
    ∀ (k done : Nat) (es : List (Element K)) (t : Vec n K) (r : Ended n K), loop cfg air given power k done es t = .ended r →
      done ≤ r.iterations ∧ r.iterations ≤ done + k ∧ (r.converged = false → r.iterations = done + k) ∧
      (r.converged = true → done < r.iterations) := by
  intro k
  induction k with
  | zero => intro done es t r h; simp [loop] at h; rw [← h]; simp
  | succ k ih =>
    intro done es t r h
    rw [loop] at h
    split at h
    · simp at h
    · rename_i r' hr'
      split at h
      · rename_i hc
        simp at h; rw [← h]; simp [hc]
      · obtain ⟨h1, h2, h3, h4⟩ := ih _ _ _ _ h
        exact ⟨by omega, by omega, fun hc => by rw [h3 hc]; omega, fun hc => by have := h4 hc; omega⟩

theorem loop_last {cfg : Config K} {air : Air K} {given : Fin n → Option K} {power : Vec n K} :
    ∀ (k done : Nat) (es : List (Element K)) (t : Vec n K) (r : Ended n K), loop cfg air given power (k + 1) done es t = .ended r →
      ∃ (es0 : List (Element K)) (old : Vec n K) (r' : Ended n K),
        iteration cfg air given power (r.iterations == 1) es0 old = .ended r' ∧ r'.elements = r.elements ∧
        r'.temperatures = r.temperatures ∧ r'.converged = r.converged ∧ (r.iterations = done + 1 → es0 = es ∧ old = t) := by
  intro k
  induction k with
  | zero =>
    intro done es t r h
    rw [loop] at h
    split at h
    · simp at h
    · rename_i r' hr'
      have hb : (done == 0) = (done + 1 == 1) := by cases done <;> simp
      split at h
      · rename_i hc
        simp at h
        refine ⟨es, t, r', ?_, ?_, ?_, ?_, fun _ => ⟨rfl, rfl⟩⟩ <;> rw [← h]
        rw [hb] at hr'; exact hr'
      · rename_i hc
        simp [loop] at h
        refine ⟨es, t, r', ?_, ?_, ?_, ?_, fun _ => ⟨rfl, rfl⟩⟩ <;> rw [← h]
        · rw [hb] at hr'; exact hr'
        · simpa using hc
  | succ k ih =>
    intro done es t r h
    rw [loop] at h
    split at h
    · simp at h
    · rename_i r' hr'
      have hb : (done == 0) = (done + 1 == 1) := by cases done <;> simp
      split at h
      · rename_i hc
        simp at h
        refine ⟨es, t, r', ?_, ?_, ?_, ?_, fun _ => ⟨rfl, rfl⟩⟩ <;> rw [← h]
        rw [hb] at hr'; exact hr'
      · obtain ⟨es0, old, r'', h1, h2, h3, h4, h5⟩ := ih _ _ _ _ h
        refine ⟨es0, old, r'', h1, h2, h3, h4, fun he => ?_⟩
        exfalso
        have := loop_count _ _ _ _ _ h
        by_cases hcv : r.converged = true
        · have := this.2.2.2 hcv; omega
        · have := this.2.2.1 (by simpa using hcv); omega

theorem close_iff {tol : K} {old new : Vec n K} : close tol old new = true ↔ ∀ i, |new i - old i| ≤ tol := by
  unfold close
  simp [List.all_eq_true]

/-- What a calculation without exception did. -/
theorem solveCircuit_ok {cfg : Config K} {air : Air K} {nodes : List (Node K)} {es : List (Element K)} {out : Out K} {r : Result K}
    (h : solveCircuit cfg air nodes es = out) (hr : out.result = .ok r) :
    nodes.length ≠ 0 ∧ ∃ e : Ended nodes.length K,
      loop cfg air (given cfg nodes) (fun i => nodes[i].power) cfg.maxIterations 0 es (fun _ => cfg.ambient) = .ended e ∧
      out.nodes = withTemperatures nodes e.temperatures ∧ out.elements = e.elements ∧
      r = report cfg (withTemperatures nodes e.temperatures) e.elements e.converged e.iterations ∧
      (cfg.requireConvergence = true → e.converged = true) := by
  subst h
  unfold solveCircuit at hr ⊢
  by_cases h0 : nodes.length = 0
  · rw [if_pos h0] at hr; simp at hr
  refine ⟨h0, ?_⟩
  rw [if_neg h0] at hr ⊢
  split at hr
  · simp at hr
  · rename_i e he
    refine ⟨e, he, ?_⟩
    split at hr
    · simp at hr
    · rename_i hcv
      simp at hr
      rw [if_neg hcv]
      refine ⟨rfl, rfl, hr.symm, fun hq => ?_⟩
      by_contra hc
      exact hcv ⟨by simpa using hc, hq⟩

/-- C113: where convergence is required, temperatures that did not settle are never returned. -/
theorem only_settled {cfg : Config K} {air : Air K} {nodes : List (Node K)} {es : List (Element K)} {r : Result K}
    (h : (solveCircuit cfg air nodes es).result = .ok r) (hq : cfg.requireConvergence = true) : r.converged = true := by
  obtain ⟨_, e, _, _, _, hr, hc⟩ := solveCircuit_ok rfl h
  rw [hr]
  exact hc hq

/-- C113: no more iterations are made than allowed, and all of them if the temperatures did not settle. -/
theorem iterations_bounded {cfg : Config K} {air : Air K} {nodes : List (Node K)} {es : List (Element K)} {r : Result K}
    (h : (solveCircuit cfg air nodes es).result = .ok r) :
    r.iterations ≤ cfg.maxIterations ∧ (r.converged = false → r.iterations = cfg.maxIterations) := by
  obtain ⟨_, e, he, _, _, hr, _⟩ := solveCircuit_ok rfl h
  have := loop_count _ _ _ _ _ he
  rw [hr]
  simp only [report]
  exact ⟨by omega, fun hc => by have := this.2.2.1 hc; omega⟩

/-- C113: settled temperatures are within the tolerance of ones at which every node sheds its losses through the reported
    resistances; and the resistances, but in a single iteration, are those at temperatures within the tolerance of the settled ones. -/
theorem settled_balance {cfg : Config K} {air : Air K} {nodes : List (Node K)} {es : List (Element K)} {out : Out K} {r : Result K}
    (h : solveCircuit cfg air nodes es = out) (hr : out.result = .ok r) (hc : r.converged = true) :
    ∃ (t s : Vec nodes.length K) (ls : List (Link nodes.length K)), AtTemperatures nodes out.nodes t ∧
      r.elements.mapM (toLink nodes.length) = some ls ∧ Balanced ls (given cfg nodes) (fun i => nodes[i].power) s ∧
      (∀ i, |t i - s i| ≤ cfg.tolerance) ∧ (∀ i, (given cfg nodes i).isSome → t i = s i) ∧
      (r.iterations = 1 → r.elements = es ∧ ∀ i, |t i - cfg.ambient| ≤ cfg.tolerance) ∧
      (r.iterations ≠ 1 → ∃ (es0 : List (Element K)) (old : Vec nodes.length K),
        recalculateAll cfg air old es0 = some r.elements ∧ ∀ i, |t i - old i| ≤ cfg.tolerance) := by
  obtain ⟨h0, e, he, hn, _, hrep, _⟩ := solveCircuit_ok h hr
  have hce : e.converged = true := by rw [hrep] at hc; exact hc
  have hre : r.elements = e.elements := by rw [hrep]; rfl
  have hri : r.iterations = e.iterations := by rw [hrep]; rfl
  cases hm : cfg.maxIterations with
  | zero => rw [hm] at he; simp [loop] at he; rw [← he] at hce; simp at hce
  | succ k =>
    rw [hm] at he
    obtain ⟨es0, old, r', h1, h2, h3, h4, h5⟩ := loop_last _ _ _ _ _ he
    obtain ⟨es', ls, s, g1, g2, g3, g4⟩ := iteration_ended h1
    have he' : e.elements = es' := by rw [← h2, g4]
    have ht : e.temperatures = if (e.iterations == 1) = true then s else relax (given cfg nodes) old s := by rw [← h3, g4]
    have hcl : close cfg.tolerance old e.temperatures = true := by rw [← hce, ← h4, ht, g4]
    rw [close_iff] at hcl
    refine ⟨e.temperatures, s, ls, by rw [hn]; exact atTemperatures nodes _, by rw [hre, he']; exact g2, (heat_balance g3).1,
      fun i => ?_, fun i hi => ?_, fun hone => ?_, fun hmore => ?_⟩
    · have hi := hcl i
      have htol : 0 ≤ cfg.tolerance := le_trans (abs_nonneg _) hi
      rw [ht] at hi ⊢
      split
      · simpa using htol
      · rename_i hb
        rw [if_neg hb] at hi
        unfold relax at hi ⊢
        split
        · simpa using htol
        · rename_i hg
          rw [if_neg hg] at hi
          have : 1 / 2 * s i + 1 / 2 * old i - s i = -(1 / 2 * s i + 1 / 2 * old i - old i) := by ring
          rw [this, abs_neg]
          exact hi
    · rw [ht]
      split
      · rfl
      · unfold relax; rw [if_pos hi]
    · rw [hri] at hone
      obtain ⟨e1, e2⟩ := h5 (by omega)
      have hb : (e.iterations == 1) = true := by simpa using hone
      rw [hb] at g1
      simp at g1
      refine ⟨by rw [hre, he', ← g1, e1], fun i => ?_⟩
      have := hcl i
      rw [e2] at this
      exact this
    · rw [hri] at hmore
      have hb : (e.iterations == 1) = false := by simpa using hmore
      rw [hb] at g1
      refine ⟨es0, old, by rw [hre, he']; simpa using g1, hcl⟩

theorem ambientIndex_part {nodes : List (Node K)} {i : Fin nodes.length} (hi : nodes[i].part = .ambient)
    (hu : ∀ j : Fin nodes.length, nodes[j].part = .ambient → j = i) : ambientIndex nodes = i.val := by
  unfold ambientIndex
  cases h : nodes.findIdx? fun v => decide (v.part = .ambient) with
  | none =>
    exfalso
    rw [List.findIdx?_eq_none_iff] at h
    have := h nodes[i] (List.getElem_mem _)
    simp at this
    exact this hi
  | some k =>
    rw [List.findIdx?_eq_some_iff_getElem] at h
    obtain ⟨hk, hp, _⟩ := h
    have := hu ⟨k, hk⟩ (by simpa using hp)
    simp [← this]

/-- C113: the ambient has the ambient's temperature, and nodes of fixed temperature, like cold plates, keep theirs. -/
theorem given_kept {cfg : Config K} {air : Air K} {nodes : List (Node K)} {es : List (Element K)} {out : Out K} {r : Result K}
    (h : solveCircuit cfg air nodes es = out) (hr : out.result = .ok r) (hm : cfg.maxIterations ≠ 0) {a : Fin nodes.length}
    (ha : nodes[a].part = .ambient) (hu : ∀ j : Fin nodes.length, nodes[j].part = .ambient → j = a) :
    ∃ t : Vec nodes.length K, AtTemperatures nodes out.nodes t ∧ t a = cfg.ambient ∧
      ∀ i : Fin nodes.length, i ≠ a → nodes[i].fixed = true → t i = nodes[i].temperature := by
  obtain ⟨h0, e, he, hn, _, hrep, _⟩ := solveCircuit_ok h hr
  cases hk : cfg.maxIterations with
  | zero => exact absurd hk hm
  | succ k =>
    rw [hk] at he
    obtain ⟨es0, old, r', h1, h2, h3, h4, h5⟩ := loop_last _ _ _ _ _ he
    obtain ⟨es', ls, s, g1, g2, g3, g4⟩ := iteration_ended h1
    have ht : e.temperatures = if (e.iterations == 1) = true then s else relax (given cfg nodes) old s := by rw [← h3, g4]
    have hb := (heat_balance g3).1
    have hgiven : ∀ i x, given cfg nodes i = some x → e.temperatures i = x := by
      intro i x hx
      have h6 : e.temperatures i = s i := by
        rw [ht]
        split
        · rfl
        · unfold relax; rw [if_pos (by rw [hx]; rfl)]
      have h7 := hb i
      rw [hx] at h7
      rw [h6]; exact h7
    have hai := ambientIndex_part ha hu
    refine ⟨e.temperatures, by rw [hn]; exact atTemperatures nodes _, hgiven a _ ?_, fun i hia hf => hgiven i _ ?_⟩
    · unfold given; rw [if_pos hai.symm]
    · unfold given
      rw [if_neg (fun hh => hia (Fin.ext (hh.trans hai))), if_pos hf]

/-- C113: with losses, and whether temperatures settled or not, nothing is colder than the coldest of the ambient and the nodes of
    fixed temperature. -/
theorem never_colder {cfg : Config K} {air : Air K} {nodes : List (Node K)} {es : List (Element K)} {out : Out K} {r : Result K}
    (h : solveCircuit cfg air nodes es = out) (hr : out.result = .ok r) {m : K} (hp : ∀ v ∈ nodes, 0 ≤ v.power) (ha : m ≤ cfg.ambient)
    (hf : ∀ v ∈ nodes, v.fixed = true → m ≤ v.temperature) : ∀ v ∈ out.nodes, m ≤ v.temperature := by
  obtain ⟨h0, e, he, hn, _, hrep, _⟩ := solveCircuit_ok h hr
  have key : ∀ i, m ≤ e.temperatures i := by
    refine loop_inv (P := fun t => ∀ i, m ≤ t i) ?_ _ _ _ _ _ (fun _ => ha) he
    intro first es0 old r' hold hit i
    obtain ⟨es', ls, s, g1, g2, g3, g4⟩ := iteration_ended hit
    have hs : ∀ i, m ≤ s i := fun i => no_colder (links_conduct g2) g3 (fun v _ => hp _ (List.getElem_mem _)) (fun v x hx => by
      unfold given at hx
      split at hx
      · simp at hx; rw [← hx]; exact ha
      · split at hx
        · rename_i hfx
          simp at hx; rw [← hx]; exact hf _ (List.getElem_mem _) hfx
        · simp at hx) i
    rw [g4]
    show m ≤ (if first = true then s else relax (given cfg nodes) old s) i
    split
    · exact hs i
    · unfold relax
      split
      · exact hs i
      · have h1 := hs i
        have h2 := hold i
        linarith
  intro v hv
  rw [hn] at hv
  unfold withTemperatures at hv
  obtain ⟨i, rfl⟩ := (List.mem_ofFn' _ _).mp hv
  exact key i

/-- C113: without losses and with nothing fixed at another temperature, everything is at the ambient's temperature, in one iteration. -/
theorem unpowered_ambient {cfg : Config K} {air : Air K} {nodes : List (Node K)} {es : List (Element K)} {out : Out K} {r : Result K}
    (h : solveCircuit cfg air nodes es = out) (hr : out.result = .ok r) (hm : cfg.maxIterations ≠ 0) (htol : 0 ≤ cfg.tolerance)
    (hp : ∀ v ∈ nodes, v.power = 0) (hf : ∀ v ∈ nodes, v.fixed = true → v.temperature = cfg.ambient) :
    r.converged = true ∧ r.iterations = 1 ∧ r.maximum = cfg.ambient ∧ ∀ v ∈ out.nodes, v.temperature = cfg.ambient := by
  obtain ⟨h0, e, he, hn, _, hrep, _⟩ := solveCircuit_ok h hr
  cases hk : cfg.maxIterations with
  | zero => exact absurd hk hm
  | succ k =>
    rw [hk, loop] at he
    cases hit : iteration cfg air (given cfg nodes) (fun i => nodes[i].power) (0 == 0) es (fun _ => cfg.ambient) with
    | failed e' es' => rw [hit] at he; simp at he
    | ended r' =>
      rw [hit] at he
      obtain ⟨es', ls, s, g1, g2, g3, g4⟩ := iteration_ended hit
      have hgv : ∀ v x, given cfg nodes v = some x → x = cfg.ambient := fun v x hx => by
        unfold given at hx
        split at hx
        · simp at hx; exact hx.symm
        · split at hx
          · rename_i hfx
            simp at hx; rw [← hx]; exact hf _ (List.getElem_mem _) hfx
          · simp at hx
      have hs : ∀ i, s i = cfg.ambient := fun i => le_antisymm
        (no_hotter (links_conduct g2) g3 (fun v _ => (hp _ (List.getElem_mem _)).le) (fun v x hx => (hgv v x hx).le) i)
        (no_colder (links_conduct g2) g3 (fun v _ => (hp _ (List.getElem_mem _)).ge) (fun v x hx => (hgv v x hx).ge) i)
      have hcl : close cfg.tolerance (fun _ => cfg.ambient) s = true := by
        rw [close_iff]; intro i; rw [hs i]; simpa using htol
      have hr' : r'.converged = true := by rw [g4]; exact hcl
      simp only [hr', if_true] at he
      simp only [Loop.ended.injEq] at he
      have htm : e.temperatures = s := by rw [← he, g4]; rfl
      have hnodes : ∀ v ∈ withTemperatures nodes e.temperatures, v.temperature = cfg.ambient := by
        intro v hv
        unfold withTemperatures at hv
        obtain ⟨i, rfl⟩ := (List.mem_ofFn' _ _).mp hv
        show e.temperatures i = cfg.ambient
        rw [htm]; exact hs i
      refine ⟨by rw [hrep, ← he]; rfl, by rw [hrep, ← he]; rfl, ?_, by rw [hn]; exact hnodes⟩
      rw [hrep]
      show maximumOf cfg.ambient _ = cfg.ambient
      unfold maximumOf
      generalize withTemperatures nodes e.temperatures = l at hnodes
      induction l with
      | nil => rfl
      | cons v l ih =>
        rw [List.foldl_cons]
        have hv := hnodes v (by simp)
        rw [hv]
        simp only [lt_irrefl, if_false, ite_self, gt_iff_lt]
        exact ih fun w hw => hnodes w (by simp [hw])

/-- C113: every exception but that of convergence leaves the nodes as they were. -/
theorem failure_leaves_nodes {cfg : Config K} {air : Air K} {nodes : List (Node K)} {es : List (Element K)} {out : Out K} {x : Err}
    (h : solveCircuit cfg air nodes es = out) (hx : out.result = .throws x) (hne : x ≠ .notConverged) : out.nodes = nodes := by
  subst h
  unfold solveCircuit at hx ⊢
  by_cases h0 : nodes.length = 0
  · rw [if_pos h0]
  rw [if_neg h0] at hx ⊢
  split at hx
  · rename_i e es' he
    simp only [he]
  · rename_i e he
    split at hx
    · simp at hx; exact absurd hx.symm hne
    · simp at hx

/-- A core open to air, on a plate. -/
def onPlate (ambient plate power : ℚ) : List (Node ℚ) × List (Element ℚ) :=
  ([⟨"Core".toList, .coreBottom, power, ambient, false, none, 0, 0, 1⟩, ⟨"Ambient".toList, .ambient, 0, ambient, true, none, 0, 0, 0⟩,
     ⟨"ColdPlate".toList, .coldPlate, 0, plate, true, none, 0, 0, 0⟩],
   [⟨0, 1, .natural, .vertical, 2, 1 / 100⟩, ⟨0, 2, .conduction, .vertical, 2, 1 / 100⟩])

/-- Settings as they are by default, at 25 degrees. -/
def usual : Config ℚ := ⟨25, 1 / 10, 100, true, 0, 9 / 10, some (2 / 100)⟩

/-- Air of which the coefficient of convection is 50 everywhere. -/
def evenAir : Air ℚ := ⟨fun _ _ _ _ => 50, fun _ _ _ => 50⟩

/-- What is seen of a calculation: whether it settled, the iterations, the maximum and the temperatures of nodes. -/
def seen (o : Out ℚ) : Option (Bool × Nat × ℚ × List ℚ) :=
  match o.result with
  | .ok r => some (r.converged, r.iterations, r.maximum, o.nodes.map (·.temperature))
  | _ => none

example : seen (solveCircuit usual evenAir (onPlate 25 35 5).1 (onPlate 25 35 5).2) = some (true, 2, 35, [35, 25, 35]) := by
  decide +kernel

/-- An exception for want of convergence: it leaves the last iterate in the nodes. -/
example : (solveCircuit { usual with maxIterations := 1 } evenAir (onPlate 25 35 5).1 (onPlate 25 35 5).2).nodes.map (·.temperature) = [35, 25, 35] ∧
    seen (solveCircuit { usual with maxIterations := 1 } evenAir (onPlate 25 35 5).1 (onPlate 25 35 5).2) = none := by
  decide +kernel

/-! ## C114 -/

theorem maximum_fold (nodes : List (Node K)) (a : K) :
    a ≤ nodes.foldl (fun m v => if v.part = .ambient then m else if v.temperature > m then v.temperature else m) a ∧
    (∀ v ∈ nodes, v.part ≠ .ambient →
      v.temperature ≤ nodes.foldl (fun m v => if v.part = .ambient then m else if v.temperature > m then v.temperature else m) a) ∧
    (nodes.foldl (fun m v => if v.part = .ambient then m else if v.temperature > m then v.temperature else m) a = a ∨
      ∃ v ∈ nodes, v.part ≠ .ambient ∧
        v.temperature = nodes.foldl (fun m v => if v.part = .ambient then m else if v.temperature > m then v.temperature else m) a) := by
  induction nodes generalizing a with
  | nil => simp
  | cons v l ih =>
    rw [List.foldl_cons]
    by_cases hp : v.part = .ambient
    · rw [if_pos hp]
      obtain ⟨h1, h2, h3⟩ := ih a
      refine ⟨h1, fun w hw hwp => ?_, ?_⟩
      · rcases List.mem_cons.mp hw with rfl | hw
        · exact absurd hp hwp
        · exact h2 w hw hwp
      · rcases h3 with h3 | ⟨w, hw, hwp, hwt⟩
        · exact .inl h3
        · exact .inr ⟨w, by simp [hw], hwp, hwt⟩
    · rw [if_neg hp]
      by_cases ht : v.temperature > a
      · rw [if_pos ht]
        obtain ⟨h1, h2, h3⟩ := ih v.temperature
        refine ⟨le_trans ht.le h1, fun w hw hwp => ?_, .inr ?_⟩
        · rcases List.mem_cons.mp hw with rfl | hw
          · exact h1
          · exact h2 w hw hwp
        · rcases h3 with h3 | ⟨w, hw, hwp, hwt⟩
          · exact ⟨v, by simp, hp, h3.symm⟩
          · exact ⟨w, by simp [hw], hwp, hwt⟩
      · rw [if_neg ht]
        obtain ⟨h1, h2, h3⟩ := ih a
        refine ⟨h1, fun w hw hwp => ?_, ?_⟩
        · rcases List.mem_cons.mp hw with rfl | hw
          · exact le_trans (not_lt.mp ht) h1
          · exact h2 w hw hwp
        · rcases h3 with h3 | ⟨w, hw, hwp, hwt⟩
          · exact .inl h3
          · exact .inr ⟨w, by simp [hw], hwp, hwt⟩

/-- C114: no part is hotter than the maximum reported, and the maximum is no colder than the ambient. -/
theorem maximum_bounds {cfg : Config K} {air : Air K} {nodes : List (Node K)} {es : List (Element K)} {out : Out K} {r : Result K}
    (h : solveCircuit cfg air nodes es = out) (hr : out.result = .ok r) :
    cfg.ambient ≤ r.maximum ∧ ∀ v ∈ out.nodes, v.part ≠ .ambient → v.temperature ≤ r.maximum := by
  obtain ⟨h0, e, he, hn, _, hrep, _⟩ := solveCircuit_ok h hr
  obtain ⟨h1, h2, _⟩ := maximum_fold out.nodes cfg.ambient
  rw [hrep, ← hn]
  exact ⟨h1, h2⟩

/-- C114: the maximum is the temperature of a part, if any part is as hot as the ambient: parts colder than it are left out. -/
theorem maximum_is_hottest_partial {cfg : Config K} {air : Air K} {nodes : List (Node K)} {es : List (Element K)} {out : Out K}
    {r : Result K} (h : solveCircuit cfg air nodes es = out) (hr : out.result = .ok r)
    (hw : ∃ v ∈ out.nodes, v.part ≠ .ambient ∧ cfg.ambient ≤ v.temperature) :
    ∃ v ∈ out.nodes, v.part ≠ .ambient ∧ v.temperature = r.maximum := by
  obtain ⟨h0, e, he, hn, _, hrep, _⟩ := solveCircuit_ok h hr
  obtain ⟨h1, h2, h3⟩ := maximum_fold out.nodes cfg.ambient
  have hmx : r.maximum = maximumOf cfg.ambient out.nodes := by rw [hrep, ← hn]; rfl
  rw [hmx]
  unfold maximumOf
  rcases h3 with h3 | h3
  · obtain ⟨w, hw, hwp, hwt⟩ := hw
    refine ⟨w, hw, hwp, le_antisymm (h2 w hw hwp) ?_⟩
    rw [h3]; exact hwt
  · exact h3

/-- C114 fails on a plate colder than the ambient: no part is at the maximum reported. -/
theorem maximum_not_hottest : seen (solveCircuit usual evenAir (onPlate 25 15 0).1 (onPlate 25 15 0).2) = some (true, 2, 25, [20, 25, 15]) := by
  decide +kernel

theorem power_withTemperatures (nodes : List (Node K)) (t : Vec nodes.length K) : totalPower (withTemperatures nodes t) = totalPower nodes := by
  unfold totalPower withTemperatures
  congr 1
  refine List.ext_getElem (by simp) fun i h1 h2 => ?_
  simp

/-- C114: the thermal resistance reported is the one that, with all the losses, raises the ambient to the maximum. -/
theorem resistance_explains_rise {cfg : Config K} {air : Air K} {nodes : List (Node K)} {es : List (Element K)} {out : Out K}
    {r : Result K} (h : solveCircuit cfg air nodes es = out) (hr : out.result = .ok r) (hp : 0 < (nodes.map (·.power)).sum) :
    cfg.ambient + r.thermalResistance * (nodes.map (·.power)).sum = r.maximum ∧ 0 ≤ r.thermalResistance := by
  obtain ⟨h0, e, he, hn, _, hrep, _⟩ := solveCircuit_ok h hr
  have h1 := (maximum_bounds h hr).1
  have h2 : r.thermalResistance = (r.maximum - cfg.ambient) / (nodes.map (·.power)).sum := by
    rw [hrep]
    simp only [report, power_withTemperatures]
    rw [if_pos (by exact hp)]
    rfl
  rw [h2]
  refine ⟨?_, div_nonneg (by linarith) hp.le⟩
  rw [div_mul_cancel₀ _ hp.ne']; ring

/-- C114: the bulk thermal resistance asked for afterwards is the one reported. -/
theorem bulk_agrees {cfg : Config K} {air : Air K} {nodes : List (Node K)} {es : List (Element K)} {out : Out K} {r : Result K}
    (h : solveCircuit cfg air nodes es = out) (hr : out.result = .ok r) (hm : cfg.maxIterations ≠ 0) {a : Fin nodes.length}
    (ha : nodes[a].part = .ambient) (hu : ∀ j : Fin nodes.length, nodes[j].part = .ambient → j = a) :
    bulkResistance cfg.ambient out.nodes = r.thermalResistance := by
  obtain ⟨h0, e, he, hn, _, hrep, _⟩ := solveCircuit_ok h hr
  obtain ⟨t, ⟨hl, ht⟩, hta, _⟩ := given_kept h hr hm ha hu
  have hamb : ∀ v ∈ out.nodes, v.part = .ambient → v.temperature = cfg.ambient := by
    intro v hv hp
    obtain ⟨i, hi, rfl⟩ := List.getElem_of_mem hv
    have hi' : i < nodes.length := by omega
    have := ht ⟨i, hi'⟩
    rw [List.getElem?_eq_getElem hi] at this
    have hv' : out.nodes[i] = { nodes[i] with temperature := t ⟨i, hi'⟩ } := by simpa using this
    rw [hv'] at hp ⊢
    have := hu ⟨i, hi'⟩ hp
    rw [← hta, ← this]
  have hmax : ∀ (l : List (Node K)) (m : K), cfg.ambient ≤ m → (∀ v ∈ l, v.part = .ambient → v.temperature = cfg.ambient) →
      l.foldl (fun m v => if v.temperature > m then v.temperature else m) m =
      l.foldl (fun m v => if v.part = .ambient then m else if v.temperature > m then v.temperature else m) m := by
    intro l
    induction l with
    | nil => intros; rfl
    | cons v l ih =>
      intro m hm' hl'
      rw [List.foldl_cons, List.foldl_cons]
      have htl := fun w hw => hl' w (List.mem_cons_of_mem _ hw)
      by_cases hp : v.part = .ambient
      · rw [if_pos hp, hl' v (by simp) hp, if_neg (not_lt.mpr hm')]
        exact ih m hm' htl
      · rw [if_neg hp]
        refine ih _ ?_ htl
        split
        · rename_i hg; exact le_trans hm' (le_of_lt hg)
        · exact hm'
  unfold bulkResistance
  rw [hmax _ _ (le_refl _) hamb, hrep]
  simp only [report]
  rw [← hn]
  by_cases hp : totalPower out.nodes ≤ 0
  · rw [if_pos hp, if_neg (not_lt.mpr hp)]
  · rw [if_neg hp, if_pos (not_le.mp hp)]
    rfl

theorem sum_bounds {l : List K} {a b : K} (h : ∀ x ∈ l, a ≤ x ∧ x ≤ b) : (l.length : K) * a ≤ l.sum ∧ l.sum ≤ (l.length : K) * b := by
  induction l with
  | nil => simp
  | cons x l ih =>
    have h1 := ih fun y hy => h y (by simp [hy])
    have h2 := h x (by simp)
    simp only [List.length_cons, List.sum_cons]
    push_cast
    constructor <;> linarith [h1.1, h1.2, h2.1, h2.2]

/-- C114: the averages of core and coil are between the temperatures of the coldest and the hottest of their parts. -/
theorem averages_between {cfg : Config K} {air : Air K} {nodes : List (Node K)} {es : List (Element K)} {out : Out K} {r : Result K}
    (h : solveCircuit cfg air nodes es = out) (hr : out.result = .ok r) {a b : K} :
    ((∃ v ∈ out.nodes, isCore v.part) → (∀ v ∈ out.nodes, isCore v.part → a ≤ v.temperature ∧ v.temperature ≤ b) →
      a ≤ r.averageCore ∧ r.averageCore ≤ b) ∧
    ((∃ v ∈ out.nodes, v.part = .turn) → (∀ v ∈ out.nodes, v.part = .turn → a ≤ v.temperature ∧ v.temperature ≤ b) →
      a ≤ r.averageCoil ∧ r.averageCoil ≤ b) := by
  obtain ⟨h0, e, he, hn, _, hrep, _⟩ := solveCircuit_ok h hr
  have key : ∀ p : Part → Bool, (∃ v ∈ out.nodes, p v.part) → (∀ v ∈ out.nodes, p v.part → a ≤ v.temperature ∧ v.temperature ≤ b) →
      a ≤ averageOf cfg.ambient out.nodes p ∧ averageOf cfg.ambient out.nodes p ≤ b := by
    intro p ⟨v, hv, hpv⟩ hall
    unfold averageOf
    have hmem : v.temperature ∈ (out.nodes.filter fun v => p v.part).map (·.temperature) :=
      List.mem_map_of_mem (List.mem_filter.mpr ⟨hv, by simpa using hpv⟩)
    have hpos : 0 < ((out.nodes.filter fun v => p v.part).map (·.temperature)).length := List.length_pos_of_mem hmem
    have hb := sum_bounds (l := (out.nodes.filter fun v => p v.part).map (·.temperature)) (a := a) (b := b) (fun x hx => by
      obtain ⟨w, hw, rfl⟩ := List.mem_map.mp hx
      obtain ⟨hw1, hw2⟩ := List.mem_filter.mp hw
      exact hall w hw1 hw2)
    simp only
    rw [if_pos hpos]
    have hpos' : (0 : K) < (((out.nodes.filter fun v => p v.part).map (·.temperature)).length : K) := by exact_mod_cast hpos
    rw [le_div_iff₀ hpos', div_le_iff₀ hpos']
    constructor <;> linarith [hb.1, hb.2]
  rw [hrep, ← hn]
  exact ⟨fun h1 h2 => key isCore h1 h2, fun ⟨v, hv, h1⟩ h2 => key (fun p => p = .turn) ⟨v, hv, by simpa using h1⟩
    fun v hv hp => h2 v hv (by simpa using hp)⟩

theorem setEntry_new {m : List (List Char × K)} {k : List Char} {v : K} (h : ∀ e ∈ m, e.1 ≠ k) : setEntry m k v = m ++ [(k, v)] := by
  unfold setEntry
  rw [if_neg]
  simp
  exact fun x hx => h _ hx rfl

theorem byName_fold (l : List (Node K)) (m : List (List Char × K)) (hd : ((l.filter fun v => v.part ≠ .ambient).map (·.name)).Nodup)
    (hm : ∀ e ∈ m, ∀ v ∈ l, v.part ≠ .ambient → e.1 ≠ v.name) :
    l.foldl (fun m v => if v.part = .ambient then m else setEntry m v.name v.temperature) m =
      m ++ (l.filter fun v => v.part ≠ .ambient).map fun v => (v.name, v.temperature) := by
  induction l generalizing m with
  | nil => simp
  | cons v l ih =>
    rw [List.foldl_cons]
    by_cases hp : v.part = .ambient
    · rw [if_pos hp, ih m (by simpa [hp] using hd) fun e he w hw => hm e he w (by simp [hw])]
      simp [hp]
    · rw [if_neg hp, setEntry_new fun e he => hm e he v (by simp) hp]
      rw [List.filter_cons_of_pos (by simpa using hp)] at hd ⊢
      simp only [List.map_cons, List.nodup_cons] at hd
      rw [ih _ hd.2 ?_]
      · simp
      · intro e he w hw hwp
        rcases List.mem_append.mp he with he | he
        · exact hm e he w (by simp [hw]) hwp
        · simp at he
          subst he
          intro heq
          exact hd.1 (List.mem_map.mpr ⟨w, List.mem_filter.mpr ⟨hw, by simpa using hwp⟩, heq.symm⟩)

/-- C114: with names of their own, all parts are in the report with their temperatures, and nothing else is. -/
theorem all_named {cfg : Config K} {air : Air K} {nodes : List (Node K)} {es : List (Element K)} {out : Out K} {r : Result K}
    (h : solveCircuit cfg air nodes es = out) (hr : out.result = .ok r)
    (hd : ((out.nodes.filter fun v => v.part ≠ .ambient).map (·.name)).Nodup) :
    r.nodes = (out.nodes.filter fun v => v.part ≠ .ambient).map fun v => (v.name, v.temperature) := by
  obtain ⟨h0, e, he, hn, _, hrep, _⟩ := solveCircuit_ok h hr
  rw [hrep, ← hn]
  show byName out.nodes = _
  unfold byName
  rw [byName_fold _ _ hd (by simp)]
  simp

/-- The names on the plate are distinct. -/
example : (((onPlate 25 35 5).1.filter fun v => v.part ≠ .ambient).map (·.name)).Nodup := by decide +kernel

/-- A name is looked up in a report. -/
def reported (m : List (List Char × K)) (k : List Char) : Option K := (m.find? fun e => decide (e.1 = k)).map (·.2)

theorem setEntry_reported (m : List (List Char × K)) (k : List Char) (v : K) (j : List Char) :
    reported (setEntry m k v) j = if j = k then some v else reported m j := by
  have hmap : ∀ l : List (List Char × K), reported (l.map fun e => if e.1 = k then (k, v) else e) j =
      if j = k then (if l.any fun e => decide (e.1 = k) then some v else none) else reported l j := by
    intro l
    induction l with
    | nil => simp [reported]
    | cons a l ih =>
      unfold reported at ih ⊢
      by_cases ha : a.1 = k
      · by_cases hj : j = k
        · simp [ha, hj]
        · have : ¬ k = j := fun h => hj h.symm
          have haj : ¬ a.1 = j := fun h => hj (h.symm.trans ha)
          rw [if_neg hj] at ih ⊢
          rw [List.map_cons, if_pos ha, List.find?_cons_of_neg (by simpa using this), List.find?_cons_of_neg (by simpa using haj), ih]
      · by_cases haj : a.1 = j
        · have hj : ¬ j = k := fun h => ha (haj.trans h)
          simp [ha, haj, hj]
        · rw [List.map_cons, if_neg ha, List.find?_cons_of_neg (by simpa using haj), List.find?_cons_of_neg (by simpa using haj), ih, List.any_cons, decide_eq_false ha,
            Bool.false_or]
  unfold setEntry
  split
  · rename_i h
    rw [hmap, if_pos h]
  · rename_i h
    unfold reported
    rw [List.find?_append]
    by_cases hj : j = k
    · have : m.find? (fun e => decide (e.1 = j)) = none := by
        rw [List.find?_eq_none]
        intro e he
        simp only [decide_eq_true_eq]
        intro h'
        exact h (List.any_eq_true.mpr ⟨e, he, by simp [h', hj]⟩)
      rw [if_pos hj, this]
      simp [hj]
    · have : ¬ k = j := fun h => hj h.symm
      simp [hj, this]

theorem byName_reported (l : List (Node K)) (m : List (List Char × K)) (j : List Char) :
    reported (l.foldl (fun m v => if v.part = .ambient then m else setEntry m v.name v.temperature) m) j =
      match l.reverse.find? (fun v => decide (v.part ≠ .ambient ∧ v.name = j)) with
      | some v => some v.temperature
      | none => reported m j := by
  induction l generalizing m with
  | nil => simp
  | cons v l ih =>
    rw [List.foldl_cons, ih, List.reverse_cons, List.find?_append]
    cases hf : l.reverse.find? (fun v => decide (v.part ≠ .ambient ∧ v.name = j)) with
    | some w => simp
    | none =>
      by_cases hp : v.part = .ambient
      · simp [hp]
      · rw [if_neg hp, setEntry_reported]
        by_cases hj : v.name = j
        · simp [hp, hj]
        · have : ¬ j = v.name := fun h => hj h.symm
          simp [hj, this]

/-- C114: whatever the names of the parts, the temperature reported under a name is that of the last part that has it, and a name
    nobody but the ambient has is not reported. -/
theorem last_of_a_name {cfg : Config K} {air : Air K} {nodes : List (Node K)} {es : List (Element K)} {out : Out K} {r : Result K}
    (h : solveCircuit cfg air nodes es = out) (hr : out.result = .ok r) :
    (∀ (a b : List (Node K)) (v : Node K), out.nodes = a ++ v :: b → v.part ≠ .ambient →
      (∀ w ∈ b, w.part ≠ .ambient → w.name ≠ v.name) → reported r.nodes v.name = some v.temperature) ∧
    ∀ k : List Char, (∀ v ∈ out.nodes, v.part ≠ .ambient → v.name ≠ k) → reported r.nodes k = none := by
  obtain ⟨h0, e, he, hn, _, hrep, _⟩ := solveCircuit_ok h hr
  have hb : ∀ j, reported r.nodes j = match out.nodes.reverse.find? (fun v => decide (v.part ≠ .ambient ∧ v.name = j)) with
      | some v => some v.temperature
      | none => none := by
    intro j
    rw [hrep, ← hn]
    show reported (byName out.nodes) j = _
    unfold byName
    rw [byName_reported]
    rfl
  refine ⟨fun a b v hab hv hw => ?_, fun k hk => ?_⟩
  · rw [hb, hab, List.reverse_append, List.reverse_cons, List.find?_append, List.find?_append]
    have : b.reverse.find? (fun w => decide (w.part ≠ .ambient ∧ w.name = v.name)) = none := by
      rw [List.find?_eq_none]
      intro w hwb
      simp only [decide_eq_true_eq, not_and]
      exact hw w (List.mem_reverse.mp hwb)
    rw [this]
    simp [hv]
  · rw [hb]
    have : out.nodes.reverse.find? (fun w => decide (w.part ≠ .ambient ∧ w.name = k)) = none := by
      rw [List.find?_eq_none]
      intro w hwb
      simp only [decide_eq_true_eq, not_and]
      exact hk w (List.mem_reverse.mp hwb)
    rw [this]

/-- The last node of the plate is its own last of its name. -/
example : ∃ (a : List (Node ℚ)) (v : Node ℚ), (onPlate 25 35 5).1 = a ++ v :: [] :=
  ⟨(onPlate 25 35 5).1.dropLast, (onPlate 25 35 5).1.getLast (by simp [onPlate]), (List.dropLast_append_getLast _).symm⟩

/-- C113: which node has the temperature of the ambient: the first that is of the ambient, or the last node if none is. -/
theorem ambient_chosen {cfg : Config K} {nodes : List (Node K)} (i : Fin nodes.length) :
    ((nodes[i].part = .ambient ∧ (∀ j : Fin nodes.length, j < i → nodes[j].part ≠ .ambient) ∨
        (∀ v ∈ nodes, v.part ≠ .ambient) ∧ i.val + 1 = nodes.length) → given cfg nodes i = some cfg.ambient) ∧
    (nodes[i].fixed = false → given cfg nodes i ≠ none →
      nodes[i].part = .ambient ∧ (∀ j : Fin nodes.length, j < i → nodes[j].part ≠ .ambient) ∨
        (∀ v ∈ nodes, v.part ≠ .ambient) ∧ i.val + 1 = nodes.length) := by
  have key : i.val = ambientIndex nodes ↔
      nodes[i].part = .ambient ∧ (∀ j : Fin nodes.length, j < i → nodes[j].part ≠ .ambient) ∨
        (∀ v ∈ nodes, v.part ≠ .ambient) ∧ i.val + 1 = nodes.length := by
    unfold ambientIndex
    cases h : nodes.findIdx? fun v => decide (v.part = .ambient) with
    | none =>
      rw [List.findIdx?_eq_none_iff] at h
      have h' : ∀ v ∈ nodes, v.part ≠ .ambient := fun v hv => by simpa using h v hv
      have := i.isLt
      constructor
      · intro hi
        simp at hi
        exact .inr ⟨h', by omega⟩
      · rintro (⟨h1, _⟩ | ⟨_, h2⟩)
        · exact absurd h1 (h' _ (List.getElem_mem _))
        · simp; omega
    | some k =>
      rw [List.findIdx?_eq_some_iff_getElem] at h
      obtain ⟨hk, hp, hlt⟩ := h
      simp only [decide_eq_true_eq] at hp
      constructor
      · intro hi
        simp at hi
        subst hi
        exact .inl ⟨hp, fun j hj => by simpa using hlt j.val hj⟩
      · rintro (⟨h1, h2⟩ | ⟨h1, _⟩)
        · simp
          rcases Nat.lt_trichotomy i.val k with hik | hik | hik
          · exact absurd h1 (by simpa using hlt i.val hik)
          · exact hik
          · exact absurd hp (h2 ⟨k, hk⟩ hik)
        · exact absurd hp (h1 _ (List.getElem_mem _))
  refine ⟨fun hc => ?_, fun hf hn => ?_⟩
  · unfold given
    rw [if_pos (key.mpr hc)]
  · refine key.mp ?_
    by_contra hc
    apply hn
    unfold given
    rw [if_neg hc, if_neg (by rw [hf]; simp)]

/-- Nodes without an ambient. -/
example : ∀ v ∈ (onPlate 25 35 5).1.filter (fun v => v.part ≠ .ambient), v.part ≠ .ambient := by decide +kernel

end Verif.Thermal
