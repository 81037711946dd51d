import Verif.WindingLosses.SumLemmas

/-! # Lemmas: the stages of the losses and their totals without connections -/

set_option linter.unusedSimpArgs false

namespace Verif.WindingLosses

variable {resistance : Wire → ℚ} {real : Bool} {c : Coil} {exc : List (Option Current)} {o : Output}

/-! ## Ohmic -/

theorem connectionLengths_ideal {lengths : List (List ℚ)} (h : connectionLengths false c = .ok lengths) :
    ∀ ls ∈ lengths, ∀ l ∈ ls, l = 0 := by
  simp only [connectionLengths, Bool.false_eq_true, if_false, Res.ok.injEq] at h
  subst h
  intro ls hls l hl
  obtain ⟨x, _, rfl⟩ := List.mem_map.1 hls
  obtain ⟨_, _, rfl⟩ := List.mem_map.1 hl
  rfl

theorem connectionResistances_zero {ws : List Winding} {lengths cs : List (List ℚ)}
    (h : connectionResistances resistance ws lengths = .ok cs) (h0 : ∀ ls ∈ lengths, ∀ l ∈ ls, l = 0) (w p : Nat) :
    ((cs[w]?.getD [])[p]?).getD 0 = 0 := by
  have hall : ∀ l ∈ cs, ∀ y ∈ l, y = 0 := by
    have hF := Res.mapM_ok h
    have hz : ∀ x ∈ ws.zip lengths, ∀ l ∈ x.2, l = 0 := fun x hx => h0 x.2 (List.of_mem_zip hx).2
    clear h h0
    generalize ws.zip lengths = z at hF hz
    induction hF with
    | nil => simp
    | @cons a b z cs hab _ ih =>
      intro l hl
      rcases List.mem_cons.1 hl with rfl | hl
      · have hn : ¬ (a.2.any fun l => decide (l > 0)) = true := by
          simp only [List.any_eq_true, decide_eq_true_eq, not_exists, not_and]
          intro y hy; rw [hz a (by simp) y hy]; exact lt_irrefl 0
        rw [if_neg hn, Res.ok.injEq] at hab; subst hab
        intro y hy; obtain ⟨_, _, rfl⟩ := List.mem_map.1 hy; rfl
      · exact ih (fun x hx => hz x (by simp [hx])) l hl
  cases h1 : cs[w]? with
  | none => rfl
  | some l =>
    cases h2 : l[p]? with
    | none => simp [h2]
    | some y => simp [h2, hall l (List.mem_of_getElem? h1) y (List.mem_of_getElem? h2)]

/-- The parallels of a winding by index. -/
def parallelsAt (ws : List Winding) (w : Nat) : Nat := (ws[w]?.map Winding.parallels).getD 0

/-- The currents computed. -/
def Parts.currents (P : Parts resistance real c exc o) : List (List ℚ) :=
  (P.rms.zip P.ss).map fun x => parallelCurrents x.1 x.2

theorem Parts.winding_sum (P : Parts resistance real c exc o) {w : Nat} (hw : w < c.windings.length) :
    ∃ (l k : List ℚ), P.ss[w]? = some l ∧ P.currents[w]? = some k ∧
      ((l.zip k).map fun y => y.1 * (y.2 * y.2)).sum =
        ((List.range (parallelsAt c.windings w)).map fun p => series P.bs P.cs w p *
          (currentAt P.currents ⟨w, p, 0⟩ * currentAt P.currents ⟨w, p, 0⟩)).sum := by
  obtain ⟨i, l, _, _, h3, h4, _, h6⟩ := P.winding (List.getElem?_eq_getElem hw)
  refine ⟨l, parallelCurrents i l, h3, h6, ?_⟩
  have hp : parallelsAt c.windings w = l.length := by
    rw [h4]; simp [parallelsAt, List.getElem?_eq_getElem hw]
  congr 1
  apply List.ext_getElem
  · simp [hp, parallelCurrents_length]
  · intro k hk1 hk2
    have hkl : k < l.length := by simp [parallelCurrents_length] at hk1; exact hk1
    have hkc : k < (parallelCurrents i l).length := by rw [parallelCurrents_length]; exact hkl
    have hs : series P.bs P.cs w k = l[k] := by simp [h4]
    have hc : currentAt P.currents ⟨w, k, 0⟩ = (parallelCurrents i l)[k] := by
      rw [currentAt_eq (currents := P.currents) (l := parallelCurrents i l) h6, List.getElem?_eq_getElem hkc]; rfl
    simp only [List.getElem_map, List.getElem_zip, List.getElem_range, hs, hc]

theorem Parts.total_eq (P : Parts resistance real c exc o) :
    o.total = ((List.range c.windings.length).map fun w => ((List.range (parallelsAt c.windings w)).map fun p =>
      series P.bs P.cs w p * (currentAt P.currents ⟨w, p, 0⟩ * currentAt P.currents ⟨w, p, 0⟩)).sum).sum := by
  have hss := (seriesFrom_ok P.hss).1
  have hrms : P.rms.length = c.windings.length := by simpa using forall₂_length (Res.mapM_ok P.hrms)
  refine (congrArg Output.total P.hout).trans ?_
  show ((P.ss.zip P.currents).map _).sum = _
  congr 1
  apply List.ext_getElem
  · simp [Parts.currents, hss, hrms]
  · intro w h1 h2
    have hw : w < c.windings.length := by simpa using h2
    obtain ⟨l, k, e1, e2, e3⟩ := P.winding_sum hw
    simp only [List.getElem_map, List.getElem_zip, List.getElem_range]
    rw [← e3, (List.getElem?_eq_some_iff.1 e1).2, (List.getElem?_eq_some_iff.1 e2).2]

theorem Parts.branch_mem (P : Parts resistance real c exc o) : ∀ b ∈ P.bs, b.winding < c.windings.length ∧
    b.parallel < parallelsAt c.windings b.winding := by
  have hF := Res.mapM_ok P.hbs
  generalize P.bs = bs at hF
  generalize P.turns = turns at hF
  induction hF with
  | nil => simp
  | cons hab _ ih =>
    intro b hb
    rcases List.mem_cons.1 hb with rfl | hb
    · obtain ⟨w, x, _, hx, _, _, hp, rfl⟩ := branchOf_ok hab
      exact ⟨(List.getElem?_eq_some_iff.1 hx).1, by simpa [parallelsAt, hx] using hp⟩
    · exact ih b hb

theorem currentAt_key (currents : List (List ℚ)) (b : Branch) :
    currentAt currents b = currentAt currents ⟨b.winding, b.parallel, 0⟩ := rfl

/-- Without connections, the ohmic total is that of the turns. -/
theorem ohmic_total (P : Parts resistance false c exc o) :
    o.total = (P.bs.map fun b => currentAt P.currents b * currentAt P.currents b * b.resistance).sum := by
  have h0 := connectionResistances_zero P.hcs (connectionLengths_ideal P.hlengths)
  rw [P.total_eq, ← sum_by_key Branch.winding _ (List.range c.windings.length) List.nodup_range P.bs
    fun b hb => List.mem_range.2 (P.branch_mem b hb).1]
  congr 1
  apply List.map_congr_left
  intro w _
  rw [← sum_by_key Branch.parallel _ (List.range (parallelsAt c.windings w)) List.nodup_range
    (P.bs.filter fun b => decide (b.winding = w)) (by
      intro b hb
      obtain ⟨h1, h2⟩ := List.mem_filter.1 hb
      have h2 : b.winding = w := by simpa using h2
      rw [← h2]; exact List.mem_range.2 (P.branch_mem b h1).2)]
  congr 1
  apply List.map_congr_left
  intro p _
  unfold series
  rw [h0, add_zero, ← List.sum_map_mul_right, List.filter_filter]
  have hf : (fun b : Branch => b.winding == w && b.parallel == p) =
      fun b => decide (b.parallel = p) && decide (b.winding = w) := by
    funext b; rw [Bool.and_comm, beq_eq_decide, beq_eq_decide]
  rw [hf]
  congr 1
  apply List.map_congr_left
  intro b hb
  have := (List.mem_filter.1 hb).2
  simp only [Bool.and_eq_true, decide_eq_true_eq] at this
  rw [currentAt_key P.currents b, this.1, this.2]; ring

theorem ohmic_turns (P : Parts resistance real c exc o) : o.perTurn.length = P.turns.length ∧
    o.dividers.length = P.turns.length ∧ (∀ e ∈ o.perTurn, e.skin = none ∧ e.proximity = none) ∧
    elementsTotal o.perTurn = (P.bs.map fun b => currentAt P.currents b * currentAt P.currents b * b.resistance).sum := by
  have hb := forall₂_length (Res.mapM_ok P.hbs)
  have hpt := congrArg Output.perTurn P.hout
  simp only at hpt
  refine ⟨by rw [hpt]; simp [hb], by rw [congrArg Output.dividers P.hout]; simp [hb], ?_, ?_⟩
  · rw [hpt]; intro e he
    obtain ⟨b, _, rfl⟩ := List.mem_map.1 he; exact ⟨rfl, rfl⟩
  · rw [hpt, elementsTotal, List.map_map]
    congr 1
    apply List.map_congr_left
    intro b _
    simp [elementTotal, sumOf, Parts.currents]

/-! ## Skin and proximity -/

theorem zip_total_skin : ∀ (es : List Element) (ls : List (List (ℚ × ℚ))), ls.length = es.length →
    (∀ e ∈ es, e.skin = none ∧ e.proximity = none) →
    elementsTotal ((es.zip ls).map fun x => { x.1 with skin := some x.2 }) = elementsTotal es + (ls.map sumOf).sum ∧
      ∀ e ∈ (es.zip ls).map (fun x => ({ x.1 with skin := some x.2 } : Element)), e.proximity = none
  | [], [], _, _ => by simp [elementsTotal]
  | [], _ :: _, h, _ => by simp at h
  | _ :: _, [], h, _ => by simp at h
  | e :: es, l :: ls, h, hn => by
    obtain ⟨h1, h2⟩ := zip_total_skin es ls (by simpa using h) fun x hx => hn x (by simp [hx])
    obtain ⟨hs, hp⟩ := hn e (by simp)
    constructor
    · simp only [elementsTotal, List.zip_cons_cons, List.map_cons, List.sum_cons] at h1 ⊢
      rw [h1]
      simp [elementTotal, hs, hp, sumOf]; ring
    · intro x hx
      rw [List.zip_cons_cons, List.map_cons] at hx
      rcases List.mem_cons.1 hx with rfl | hx
      · exact hp
      · exact h2 x hx

theorem zip_total_proximity : ∀ (es : List Element) (ls : List (List (ℚ × ℚ))), ls.length = es.length →
    (∀ e ∈ es, e.proximity = none) →
    elementsTotal ((es.zip ls).map fun x => { x.1 with proximity := some x.2 }) = elementsTotal es + (ls.map sumOf).sum
  | [], [], _, _ => by simp [elementsTotal]
  | [], _ :: _, h, _ => by simp at h
  | _ :: _, [], h, _ => by simp at h
  | e :: es, l :: ls, h, hn => by
    have h1 := zip_total_proximity es ls (by simpa using h) fun x hx => hn x (by simp [hx])
    have hp := hn e (by simp)
    simp only [elementsTotal, List.zip_cons_cons, List.map_cons, List.sum_cons] at h1 ⊢
    rw [h1]
    simp [elementTotal, hp, sumOf]; ring

theorem skinConnections_zero {S : Type} {skin : Wire → ℚ → ℚ → ℚ → M S ℚ} {ws : List Winding} {tds : List (Turn × ℚ)}
    {w : Nat} : ∀ (lengths : List ℚ) (p : Nat) (acc : Option (List (ℚ × ℚ))) (s : S), (∀ l ∈ lengths, l = 0) →
      skinConnections resistance skin ws exc tds w p lengths acc s = (s, .ok acc)
  | [], _, _, _, _ => rfl
  | l :: ls, p, acc, s, h => by
    rw [skinConnections, if_pos (le_of_eq (h l (by simp)))]
    exact skinConnections_zero ls (p + 1) acc s fun x hx => h x (by simp [hx])

theorem skinConnectionsFrom_zero {S : Type} {skin : Wire → ℚ → ℚ → ℚ → M S ℚ} {ws : List Winding}
    {tds : List (Turn × ℚ)} : ∀ (lengths : List (List ℚ)) (w : Nat) (s : S), (∀ ls ∈ lengths, ∀ l ∈ ls, l = 0) →
      skinConnectionsFrom resistance skin ws exc tds w lengths s = (s, .ok (lengths.map fun _ => none))
  | [], _, _, _ => rfl
  | ls :: rest, w, s, h => by
    rw [skinConnectionsFrom, M.bind, skinConnections_zero ls 0 none s (h ls (by simp))]
    simp only
    rw [M.bind, skinConnectionsFrom_zero rest (w + 1) s fun x hx => h x (by simp [hx])]
    rfl

/-- Without connections, skin effect adds to the total what it adds to the turns. -/
theorem skin_total {S : Type} {skin : Wire → ℚ → ℚ → ℚ → M S ℚ} {rt : ℚ → ℚ} {th : ℚ} {wf : Bool} {s s' : S} {o' : Output}
    {turns : List Turn} (ht : c.turns = some turns) (h : skinLosses resistance skin false rt th c exc wf o s = (s', .ok o'))
    (h1 : o.perTurn.length = turns.length) (h2 : o.dividers.length = turns.length)
    (hn : ∀ e ∈ o.perTurn, e.skin = none ∧ e.proximity = none) (heq : o.total = elementsTotal o.perTurn) :
    o'.perTurn.length = turns.length ∧ (∀ e ∈ o'.perTurn, e.proximity = none) ∧ o'.total = elementsTotal o'.perTurn := by
  unfold skinLosses at h
  rw [ht] at h
  simp only at h
  split at h
  · simp [M.lift] at h
  · obtain ⟨exc', s₀, _, h⟩ := M.bind_ok h
    obtain ⟨perTurn, s₁, hpt, h⟩ := M.bind_ok h
    obtain ⟨lengths, s₂, hl, h⟩ := M.bind_ok h
    obtain ⟨hl, _⟩ := M.lift_ok hl
    obtain ⟨conns, s₃, hc, h⟩ := M.bind_ok h
    obtain ⟨h, _⟩ := M.pure_ok h
    have hplen : perTurn.length = turns.length := by
      rw [M.mapM_length hpt, List.length_zip, h2, Nat.min_self]
    rw [skinConnectionsFrom_zero lengths 0 _ (connectionLengths_ideal hl), Prod.mk.injEq, Res.ok.injEq] at hc
    have hz : (conns.map fun a => sumOf (a.getD [])).sum = 0 := by
      rw [← hc.2]; apply List.sum_eq_zero
      intro y hy; simp only [List.map_map, List.mem_map] at hy; obtain ⟨_, _, rfl⟩ := hy; rfl
    obtain ⟨e1, e2⟩ := zip_total_skin o.perTurn perTurn (by omega) hn
    subst h
    refine ⟨by simp [h1, hplen], e2, ?_⟩
    show o.total + ((perTurn.map sumOf).sum + _) = elementsTotal _
    rw [hz, add_zero, e1, heq]

/-- With or without connections, there are losses for every turn. -/
theorem skin_turns {S : Type} {skin : Wire → ℚ → ℚ → ℚ → M S ℚ} {rt : ℚ → ℚ} {th : ℚ} {wf : Bool} {s s' : S} {o' : Output}
    {turns : List Turn} (ht : c.turns = some turns) (h : skinLosses resistance skin real rt th c exc wf o s = (s', .ok o'))
    (h1 : o.perTurn.length = turns.length) (h2 : o.dividers.length = turns.length) :
    o'.perTurn.length = turns.length := by
  unfold skinLosses at h
  rw [ht] at h
  simp only at h
  split at h
  · simp [M.lift] at h
  · obtain ⟨exc', s₀, _, h⟩ := M.bind_ok h
    obtain ⟨perTurn, s₁, hpt, h⟩ := M.bind_ok h
    obtain ⟨lengths, s₂, _, h⟩ := M.bind_ok h
    obtain ⟨conns, s₃, _, h⟩ := M.bind_ok h
    obtain ⟨h, _⟩ := M.pure_ok h
    have hplen : perTurn.length = turns.length := by
      rw [M.mapM_length hpt, List.length_zip, h2, Nat.min_self]
    subst h
    simp [h1, hplen]

theorem proximity_turns {prox : Wire → ℚ → List Point → Res ℚ} {ws : List Winding} {fields : List Field} {o' : Output}
    {turns : List Turn} (h : proximityLosses prox ws turns fields o = .ok o') (h1 : o.perTurn.length = turns.length) :
    o'.perTurn.length = turns.length := by
  obtain ⟨perTurn, hpt, h⟩ := Res.bind_ok h
  have hplen : perTurn.length = turns.length := by
    rw [forall₂_length (Res.mapM_ok hpt), List.length_zipIdx]
  simp only [Res.ok.injEq] at h; subst h
  simp [h1, hplen]

theorem proximity_total {prox : Wire → ℚ → List Point → Res ℚ} {ws : List Winding} {fields : List Field} {o' : Output}
    {turns : List Turn} (h : proximityLosses prox ws turns fields o = .ok o') (h1 : o.perTurn.length = turns.length)
    (hn : ∀ e ∈ o.perTurn, e.proximity = none) (heq : o.total = elementsTotal o.perTurn) :
    o'.perTurn.length = turns.length ∧ o'.total = elementsTotal o'.perTurn := by
  obtain ⟨perTurn, hpt, h⟩ := Res.bind_ok h
  have hplen : perTurn.length = turns.length := by
    rw [forall₂_length (Res.mapM_ok hpt), List.length_zipIdx]
  simp only [Res.ok.injEq] at h; subst h
  refine ⟨by simp [h1, hplen], ?_⟩
  show o.total + _ = elementsTotal _
  rw [zip_total_proximity o.perTurn perTurn (by omega) hn, heq]

end Verif.WindingLosses
