import Verif.Winding.Props

/-! # C68: the sections of a round winding window -/

namespace Verif.Winding

open Verif.Round

set_option linter.unusedSimpArgs false

/-- The sections of a winding. -/
def piecesOf (w : Nat) (pieces : List Piece) : List Piece := pieces.filter fun p => p.winding == w

/-- The turns of parallel `j` of winding `w` over all sections. -/
def woundRound (T w j : Nat) (pieces : List Piece) : ℤ :=
  ((piecesOf w pieces).map fun p => share T j p.props).sum

theorem roundFloat_fraction {T k : Nat} (hT : 0 < T) (hb : T ≤ 2 * 10 ^ 9)
    (h : roundFloat ((k : ℚ) / T) 9 = 0) : k = 0 := by
  by_contra hk
  have hk1 : 1 ≤ k := Nat.one_le_iff_ne_zero.mpr hk
  have hTq : (0 : ℚ) < T := by exact_mod_cast hT
  have h1 : (1 : ℚ) / (2 * 10 ^ 9) ≤ (k : ℚ) / T := by
    rw [div_le_div_iff₀ (by norm_num) hTq]
    have a : (T : ℚ) ≤ 2 * 10 ^ 9 := by exact_mod_cast hb
    have b : (1 : ℚ) ≤ k := by exact_mod_cast hk1
    nlinarith
  have h2 := roundFloat_mono (d := 9) h1
  have h3 : roundFloat ((1 : ℚ) / (2 * 10 ^ 9)) 9 = 1 / 10 ^ 9 := by decide +kernel
  rw [h, h3] at h2
  norm_num at h2

/-- Inversion of a successful winding. -/
theorem round_ok {c : Ctx} {g : Group} {prop : Nat → ℚ} {pattern : List Nat} {reps : Nat} {fits : Nat → Bool}
    {pieces : List Piece} (h : windRoundSections c g prop pattern reps fits = .ok pieces) :
    ∃ plan l x, planGroup c g prop pattern reps false false = .ok plan ∧
      (∀ y ∈ l, y.1 ∈ condWindings plan.entries) ∧
      distribute c plan fits l (whole c) (fun _ => 0) 0 = .ok x ∧ allAssigned c x.2 ∧ pieces = x.1 := by
  unfold windRoundSections at h
  obtain ⟨plan, hp, h⟩ := bind_ok h
  obtain ⟨_, h⟩ := ite_ok (by simp) h
  obtain ⟨x, hx, h⟩ := bind_ok h
  by_cases ha : allAssigned c x.2
  · rw [if_pos ha, Res.ok.injEq] at h
    exact ⟨plan, _, x, hp, fun y hy => (List.of_mem_zip hy).1, hx, ha, h.symm⟩
  · rw [if_neg ha] at h
    simp at h

/-- C68: when `wind_by_round_sections` succeeds on a coil with one group, every parallel of every winding has
all its turns in the sections of the winding, and each section is consistent. -/
theorem round_sections_hold_every_turn {c : Ctx} {g : Group} {prop : Nat → ℚ} {pattern : List Nat} {reps : Nat}
    {fits : Nat → Bool} {pieces : List Piece} (h : windRoundSections c g prop pattern reps fits = .ok pieces)
    (hb : pattern.length * reps ≤ 2 * 10 ^ 10) {w : Nat} (hw : w < c.windings) (hT : 0 < c.turns w)
    (hmax : c.turns w ≤ 2 * 10 ^ 9) :
    (∀ j < c.parallels w, woundRound (c.turns w) w j pieces = c.turns w) ∧
    ∀ p ∈ piecesOf w pieces, Consistent (c.turns w) (c.parallels w) p.props p.physical := by
  obtain ⟨plan, l, x, hp, hl, hx, ha, rfl⟩ := round_ok h
  obtain ⟨h1, h2, h3, h4, h5⟩ := planGroup_ok hp
  obtain ⟨cn', hg, hrows⟩ := distribute_conserves c plan fits l _ _ _ _ x.1 x.2 (good_whole c) (by
    intro y hy
    have := hl y hy
    rw [h4 y.1 (List.count_pos_iff.mpr this).ne', h1, count_flatten]
    exact le_trans (Nat.mul_le_mul_right _ (groupPattern_count false g pattern y.1)) hb) hx
  obtain ⟨rows, ⟨e1, e2⟩, e3, e4⟩ := hrows w hT
  obtain ⟨hlen, hrem⟩ := hg w hT
  have hzero : ∀ j, (cn' w).getD j 0 = 0 := by
    intro j
    by_cases hj : j < (cn' w).length
    · rw [List.getD, List.getElem?_eq_getElem hj, Option.getD_some]
      refine roundFloat_fraction hT hmax (ha w hw _ ?_)
      rw [hrem]
      exact List.mem_map.mpr ⟨_, List.getElem_mem hj, rfl⟩
    · simp [List.getD, List.getElem?_eq_none (by omega : (cn' w).length ≤ j)]
  have hcol : ∀ j < c.parallels w, column j rows = c.turns w := by
    intro j hj
    have := e4 j
    rw [hzero] at this
    simpa [List.getD, hj] using this
  have hcol' : ∀ j, column j rows ≤ c.turns w := by
    intro j
    by_cases hj : j < c.parallels w
    · exact (hcol j hj).le
    · have := e4 j
      simp [List.getD, hj] at this
      omega
  have e1' : (piecesOf w x.1).map Piece.props = rows.map (props (c.turns w)) := e1
  have e2' : (piecesOf w x.1).map Piece.physical = rows.map List.sum := e2
  constructor
  · intro j hj
    have e : (piecesOf w x.1).map (fun p => share (c.turns w) j p.props) =
        ((piecesOf w x.1).map Piece.props).map (share (c.turns w) j) := by rw [List.map_map]; rfl
    unfold woundRound
    refine Eq.trans ?_ (congrArg (Nat.cast : ℕ → ℤ) (hcol j hj))
    rw [e, e1', List.map_map]
    have : (share (c.turns w) j ∘ props (c.turns w)) = fun r : List Nat => ((r.getD j 0 : ℕ) : ℤ) := by
      funext r; exact share_props hT j r
    rw [this]
    clear e1 e2 e1' e2' e e3 e4 hcol hcol' this hrows
    induction rows with
    | nil => rfl
    | cons r rows ih =>
      rw [List.map_cons, List.sum_cons, ih]
      simp only [column, List.map_cons, List.sum_cons]
      push_cast; rfl
  · intro p hpm
    have hmem : (p.props, p.physical) ∈ rows.map fun r => (props (c.turns w) r, r.sum) := by
      have hz : (piecesOf w x.1).map (fun p => (p.props, p.physical)) =
          rows.map fun r => (props (c.turns w) r, r.sum) := by
        have z1 : (piecesOf w x.1).map (fun p => (p.props, p.physical)) =
            ((piecesOf w x.1).map Piece.props).zip ((piecesOf w x.1).map Piece.physical) := by
          rw [List.zip_map']
        rw [z1, e1', e2', List.zip_map']
      rw [← hz]
      exact List.mem_map.mpr ⟨p, hpm, rfl⟩
    obtain ⟨r, hr, he⟩ := List.mem_map.mp hmem
    simp only [Prod.mk.injEq] at he
    rw [← he.1, ← he.2]
    refine consistent_props hT (e3 r hr) fun k hk => ?_
    obtain ⟨j, hj, rfl⟩ := List.mem_iff_getElem.mp hk
    have := column_mem (j := j) hr
    rw [List.getD, List.getElem?_eq_getElem hj, Option.getD_some] at this
    exact le_trans this (hcol' j)

/-- Two windings of 10 turns in a round window. -/
def roundSample : Ctx where
  windings := 2
  turns := fun _ => 10
  parallels := fun _ => 1
  override := fun _ => none
  inherit := fun _ => none
  orientation := .overlapping
  insulation := fun _ _ => none
  wire := fun _ => (1/2000, 1/2000)
  margin := fun _ => (0, 0)

/-- A window of 8 mm radius. -/
def roundGroup : Group := { members := [0, 1], dims := (8/1000, 360), centre := (8/1000, 0), orientation := .overlapping }

example : (windRoundSections { roundSample with windings := 1, parallels := fun _ => 3 } roundGroup (fun _ => 1) [0] 2
      (fun _ => true)).returns fun pieces =>
    (piecesOf 0 pieces).map (fun p => (p.physical, share 10 0 p.props)) = [(24, 8), (6, 2)] := by
  decide +kernel

/-- C68: a round window of overlapping sections shares the turns out by the area of each section, and with the first
section of a winding larger than average the others do not make up for it: two windings of ten turns, wound
alternately twice, throw the exception for unassigned turns. -/
theorem round_sections_unassigned :
    windRoundSections roundSample roundGroup (fun _ => 1/2) [0, 1] 2 (fun _ => true) =
      .thrown unassignedRound := by
  decide +kernel

/-- Whether sections fit only decides between going on and refusing. -/
theorem distribute_fits (c : Ctx) (plan : Plan) (fits : Nat → Bool) :
    ∀ (l : List (Nat × ℚ)) (rem : Nat → List ℚ) (count : Nat → Nat) (k : Nat) (x : List Piece × (Nat → List ℚ)),
      distribute c plan (fun _ => true) l rem count k = .ok x →
      distribute c plan fits l rem count k = .ok x ∨ distribute c plan fits l rem count k = .refused
  | [], rem, count, k, x, h => Or.inl h
  | (w, rel) :: rest, rem, count, k, x, h => by
    unfold distribute at h ⊢
    obtain ⟨r, hr, h⟩ := bind_ok h
    rw [if_neg (by simp)] at h
    obtain ⟨y, hy, h⟩ := bind_ok h
    rw [hr]
    simp only [Res.bind]
    by_cases hf : fits k = false
    · rw [if_pos hf]; exact Or.inr rfl
    · rw [if_neg hf]
      rcases distribute_fits c plan fits rest _ _ (k + 1) y hy with h' | h'
      · rw [h']; exact Or.inl h
      · rw [h']; exact Or.inr rfl

/-- C68: contiguous sections of a round window are distributed as those of a rectangular one, so the exception for
unassigned turns is never thrown, and there is no undefined behaviour or NaN. -/
theorem round_contiguous_never_unassigned {c : Ctx} {g : Group} {prop : Nat → ℚ} {pattern : List Nat} {reps : Nat}
    {fits : Nat → Bool} (ho : c.orientation = .contiguous) (hb : pattern.length * reps ≤ 2 * 10 ^ 10)
    (hreps : 0 < reps) (hpat : pattern ≠ []) (hT : ∀ w < c.windings, 0 < c.turns w)
    (hw : ∀ w < c.windings, w ∈ pattern) :
    windRoundSections c g prop pattern reps fits ≠ .thrown unassignedRound ∧
      windRoundSections c g prop pattern reps fits ≠ .ub ∧
      windRoundSections c g prop pattern reps fits ≠ .nan := by
  have hplan := planGroup_safe c g prop pattern reps false false hreps (fun _ => hpat) (by simp)
  unfold windRoundSections
  cases hp : planGroup c g prop pattern reps false false with
  | refused => simp [Res.bind]
  | thrown m =>
    rw [hp] at hplan
    simpa [Res.bind, Safe] using hplan.2.2.2
  | ub => exact absurd hp hplan.1
  | nan => exact absurd hp hplan.2.1
  | ok plan =>
    simp only [Res.bind, ho]
    rw [if_neg (by simp)]
    obtain ⟨h1, h2, h3, h4, h5⟩ := planGroup_ok hp
    have hgp : groupPattern g pattern false = pattern := rfl
    rw [hgp] at h1 h3
    set ws := condWindings plan.entries with hws
    have hzip : ws.zip (List.replicate ws.length (1 : ℚ)) = ws.map fun w => (w, (1 : ℚ)) := by
      clear_value ws
      clear hws h1 h2 h4
      induction ws with
      | nil => rfl
      | cons a l ih => simp [List.replicate_succ, ih]
    rw [hzip]
    have hcount : ∀ w, ws.count w ≤ 2 * 10 ^ 10 := by
      intro w
      rw [h1, count_flatten]
      exact le_trans (Nat.mul_le_mul_right _ List.count_le_length) hb
    have hin : ∀ w ∈ ws, w < c.windings := by
      intro w hw'
      rw [h1] at hw'
      obtain ⟨l, hl, hwl⟩ := List.mem_flatten.mp hw'
      rw [(List.mem_replicate.mp hl).2] at hwl
      exact h3 w hwl
    have hocc : ∀ w, occ w ws = 0 ∨ occ w ws + (fun _ : Nat => 0) w = plan.slots w := by
      intro w
      by_cases h0 : occ w ws = 0
      · exact Or.inl h0
      · right; rw [h4 w h0]; rfl
    obtain ⟨x, hx⟩ := distribute_succeeds c plan ws (whole c) (fun _ => 0) 0 _ (good_whole c)
      (fun w hw' => ⟨hT w (hin w hw'), by
        rw [h4 w (List.count_pos_iff.mpr hw').ne']; exact hcount w⟩) hocc
    have hassigned : allAssigned c x.2 := by
      intro w hw' p hpm
      obtain ⟨hlen, hrem⟩ := good_whole c w (hT w hw')
      have hmem : w ∈ ws := by
        rw [h1]
        exact List.mem_flatten.mpr ⟨pattern, List.mem_replicate.mpr ⟨by omega, rfl⟩, hw w hw'⟩
      have hpos : 0 < occ w ws := List.count_pos_iff.mpr hmem
      obtain ⟨a1, _⟩ := distribute_winding c plan w (hT w hw') ws (whole c) (fun _ => 0) 0 _ x.1 x.2 hlen hrem
        (Or.inr ⟨by rcases hocc w with h | h
                    · omega
                    · exact h, by rw [h4 w hpos.ne']; exact hcount w⟩) hx
      rw [a1, leftNat_zero _ _ _ hpos] at hpm
      obtain ⟨k, hk, rfl⟩ := List.mem_map.mp hpm
      rw [(List.mem_replicate.mp hk).2]
      simp [roundFloat_zero]
    rcases distribute_fits c plan fits _ _ _ _ x hx with h' | h'
    · rw [h']; simp [hassigned]
    · rw [h']; simp

end Verif.Winding
