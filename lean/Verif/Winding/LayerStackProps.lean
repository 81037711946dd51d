import Verif.Winding.LayerFitProps

/-! # C72: where the layers of a section lie -/

namespace Verif.Winding

open Verif.Round

set_option linter.unusedSimpArgs false

/-! ## Specification

Positions are measured the way layers are stacked: to the right when layers overlap, downwards when they are
contiguous. -/

/-- The position of a point. -/
def along (o : Orientation) (c : ℚ × ℚ) : ℚ :=
  match o with
  | .overlapping => c.1
  | .contiguous => -c.2

/-- The other coordinate. -/
def across (o : Orientation) (c : ℚ × ℚ) : ℚ :=
  match o with
  | .overlapping => c.2
  | .contiguous => c.1

/-- The thickness of a layer. -/
def Layer.thick (l : Layer) : ℚ := thickness l.orientation l.dims

/-- The position of the middle of a layer. -/
def Layer.pos (l : Layer) : ℚ := along l.orientation l.centre

/-- Each layer begins where the one before it ends, to a nanometre. -/
def Adjoining : List Layer → Prop
  | [] => True
  | [_] => True
  | x :: y :: rest => |(y.pos - y.thick / 2) - (x.pos + x.thick / 2)| ≤ 1 / 10 ^ 9 ∧ Adjoining (y :: rest)

/-- Where a section begins. -/
def sectionStart (s : SectionIn) : ℚ := along s.orientation s.centre - sectionDepth s / 2

/-- The space the alignment leaves before `n` contiguous layers of thickness `b`. -/
def alignmentGap (s : SectionIn) (n : Nat) (b : ℚ) : ℚ :=
  match s.orientation, s.alignment with
  | .overlapping, _ => 0
  | .contiguous, .innerOrTop => 0
  | .contiguous, .outerOrBottom => sectionDepth s - n * b
  | .contiguous, _ => (sectionDepth s - n * b) / 2

/-! ## Lemmas -/

theorem halfStep_along (o : Orientation) (d : ℚ) (c : ℚ × ℚ) :
    |along o (halfStep o d c) - (along o c + d / 2)| ≤ 1 / (2 * 10 ^ 9) := by
  cases o with
  | overlapping =>
    have h := roundFloat_near (c.1 + d / 2) 9
    simp only [along, halfStep]
    norm_num at h ⊢
    exact h
  | contiguous =>
    have h := roundFloat_near (c.2 - d / 2) 9
    simp only [along, halfStep]
    norm_num at h ⊢
    rw [abs_le] at h ⊢
    constructor <;> linarith [h.1, h.2]

theorem halfStep_across (o : Orientation) (d : ℚ) (c : ℚ × ℚ) : across o (halfStep o d c) = across o c := by
  cases o <;> rfl

theorem layerOf_pos (env : LayerEnv) (s : SectionIn) (plan : LayerPlan) (i k : Nat) (ps : List ℚ) (c : ℚ × ℚ) :
    (layerOf env s plan i k ps c).pos = along s.orientation c ∧
    (layerOf env s plan i k ps c).thick = plan.room.depth s.orientation ∧
    (layerOf env s plan i k ps c).conduction = true ∧
    (layerOf env s plan i k ps c).orientation = s.orientation := by
  unfold Layer.pos Layer.thick layerOf
  cases s.orientation <;> cases blocked env s plan.room <;>
    simp [along, thickness, Room.depth]

theorem layerOf_across {env : LayerEnv} {s : SectionIn} {plan : LayerPlan} {i k : Nat} {ps : List ℚ} {c : ℚ × ℚ}
    (h : blocked env s plan.room = false) :
    across s.orientation (layerOf env s plan i k ps c).centre = across s.orientation c ∧
    (layerOf env s plan i k ps c).length =
      (match s.orientation with | .overlapping => plan.room.height | .contiguous => plan.room.width) := by
  unfold Layer.length layerOf
  cases s.orientation <;> simp [h, across]

/-- The insulation between two layers. -/
theorem interlayerOf_cases (s : SectionIn) (room : Room) (i : Nat) (c : ℚ × ℚ) :
    (s.interlayer = none ∧ interlayerOf s room i c = ([], c)) ∨
    (∃ (t : ℚ) (x : Layer), s.interlayer = some t ∧ x.conduction = false ∧ x.orientation = s.orientation ∧
      x.thick = t ∧ x.centre = halfStep s.orientation t c ∧
      interlayerOf s room i c = ([x], halfStep s.orientation t (halfStep s.orientation t c))) := by
  unfold interlayerOf
  cases h : s.interlayer with
  | none => left; exact ⟨rfl, rfl⟩
  | some t =>
    right
    refine ⟨t, _, rfl, rfl, rfl, ?_, rfl, rfl⟩
    unfold Layer.thick
    cases s.orientation <;> rfl

theorem layerLoop_adjoining (env : LayerEnv) (s : SectionIn) (plan : LayerPlan) :
    ∀ (left : Nat) (rem : List ℚ) (c : ℚ × ℚ) (ls : List Layer), layerLoop env s plan left rem c = .ok ls →
      Adjoining ls ∧
      (∀ l ∈ ls, l.orientation = s.orientation) ∧
      (∀ x, ls.head? = some x → x.pos = along s.orientation c ∧ x.thick = plan.room.depth s.orientation) ∧
      (0 < left → ls ≠ [])
  | 0, rem, c, ls, h => by
    simp only [layerLoop, Res.ok.injEq] at h
    subst h
    exact ⟨trivial, by simp, by simp, by omega⟩
  | left + 1, rem, c, ls, h => by
    simp only [layerLoop] at h
    obtain ⟨r, _, h⟩ := bind_ok h
    split at h
    · simp at h
    obtain ⟨p1, p2, p3, p4⟩ := layerOf_pos env s plan (plan.count - (left + 1)) r.1 r.2 c
    generalize layerOf env s plan (plan.count - (left + 1)) r.1 r.2 c = here at h p1 p2 p3 p4
    by_cases hl : left = 0
    · rw [if_pos hl, Res.ok.injEq] at h
      subst h
      refine ⟨trivial, ?_, ?_, by simp⟩
      · intro l hm
        rw [List.mem_singleton.mp hm]
        exact p4
      · intro x hx
        simp only [List.head?_cons, Option.some.injEq] at hx
        subst hx
        exact ⟨p1, p2⟩
    rw [if_neg hl] at h
    obtain ⟨rest, hrest, h⟩ := bind_ok h
    simp only [Res.ok.injEq] at h
    obtain ⟨q1, q2, q3, q4⟩ := layerLoop_adjoining env s plan left _ _ rest hrest
    have hne := q4 (by omega)
    obtain ⟨y, rest', rfl⟩ := List.exists_cons_of_ne_nil hne
    obtain ⟨y1, y2⟩ := q3 y rfl
    have s1 := halfStep_along s.orientation (plan.room.depth s.orientation) c
    rcases interlayerOf_cases s plan.room (plan.count - (left + 1))
        (halfStep s.orientation (plan.room.depth s.orientation) c) with ⟨_, hi⟩ | ⟨t, x, _, x1, x2, x3, x4, hi⟩
    · rw [hi] at h y1 hrest
      simp only [] at h y1
      have h' : ls = here :: y :: rest' := h.symm
      subst h'
      have s2 := halfStep_along s.orientation (plan.room.depth s.orientation)
        (halfStep s.orientation (plan.room.depth s.orientation) c)
      refine ⟨⟨?_, q1⟩, ?_, ?_, by simp⟩
      · rw [p1, p2, y1, y2]
        rw [abs_le] at s1 s2 ⊢
        norm_num at s1 s2 ⊢
        constructor <;> linarith [s1.1, s1.2, s2.1, s2.2]
      · intro l hm
        rcases List.mem_cons.mp hm with rfl | hm
        · exact p4
        · exact q2 l hm
      · intro z hz
        simp only [List.head?_cons, Option.some.injEq] at hz
        subst hz
        exact ⟨p1, p2⟩
    · rw [hi] at h y1 hrest
      simp only [] at h y1
      have h' : ls = here :: x :: y :: rest' := h.symm
      subst h'
      have x5 : x.pos = along s.orientation (halfStep s.orientation t
          (halfStep s.orientation (plan.room.depth s.orientation) c)) := by
        unfold Layer.pos; rw [x2, x4]
      generalize halfStep s.orientation (plan.room.depth s.orientation) c = c1 at s1 hi x4 x5 y1 hrest
      have s2 := halfStep_along s.orientation t c1
      generalize halfStep s.orientation t c1 = c2 at s2 hi x4 x5 y1 hrest
      have s3 := halfStep_along s.orientation t c2
      generalize halfStep s.orientation t c2 = c3 at s3 hi y1 hrest
      have s4 := halfStep_along s.orientation (plan.room.depth s.orientation) c3
      rw [← y1] at s4
      refine ⟨⟨?_, ?_, q1⟩, ?_, ?_, by simp⟩
      · rw [p1, p2, x3, x5]
        rw [abs_le] at s1 s2 ⊢
        norm_num at s1 s2 ⊢
        constructor <;> linarith [s1.1, s1.2, s2.1, s2.2]
      · rw [x3, x5, y2]
        rw [abs_le] at s3 s4 ⊢
        norm_num at s3 s4 ⊢
        constructor <;> linarith [s3.1, s3.2, s4.1, s4.2]
      · intro l hm
        rcases List.mem_cons.mp hm with rfl | hm
        · exact p4
        · rcases List.mem_cons.mp hm with rfl | hm
          · exact x2
          · exact q2 l hm
      · intro z hz
        simp only [List.head?_cons, Option.some.injEq] at hz
        subst hz
        exact ⟨p1, p2⟩

/-- Without insulation between them all layers are conduction layers of the same size on the same axis. -/
theorem layerLoop_plain {env : LayerEnv} {s : SectionIn} {plan : LayerPlan} (hi : s.interlayer = none)
    (hbl : blocked env s plan.room = false) :
    ∀ (left : Nat) (rem : List ℚ) (c : ℚ × ℚ) (ls : List Layer), layerLoop env s plan left rem c = .ok ls →
      ls.length = left ∧ ∀ l ∈ ls, l.conduction = true ∧ l.thick = plan.room.depth s.orientation ∧
        across s.orientation l.centre = across s.orientation c ∧
        l.length = (match s.orientation with | .overlapping => plan.room.height | .contiguous => plan.room.width)
  | 0, rem, c, ls, h => by
    simp only [layerLoop, Res.ok.injEq] at h
    subst h
    exact ⟨rfl, by simp⟩
  | left + 1, rem, c, ls, h => by
    simp only [layerLoop] at h
    obtain ⟨r, _, h⟩ := bind_ok h
    split at h
    · simp at h
    obtain ⟨p1, p2, p3, p4⟩ := layerOf_pos env s plan (plan.count - (left + 1)) r.1 r.2 c
    obtain ⟨p5, p6⟩ := layerOf_across (i := plan.count - (left + 1)) (k := r.1) (ps := r.2) (c := c) hbl
    generalize layerOf env s plan (plan.count - (left + 1)) r.1 r.2 c = here at h p1 p2 p3 p4 p5 p6
    by_cases hl : left = 0
    · rw [if_pos hl, Res.ok.injEq] at h
      subst h
      refine ⟨by simp [hl], ?_⟩
      intro l hm
      rw [List.mem_singleton.mp hm]
      exact ⟨p3, p2, p5, p6⟩
    rw [if_neg hl] at h
    obtain ⟨rest, hrest, h⟩ := bind_ok h
    have hx : interlayerOf s plan.room (plan.count - (left + 1))
        (halfStep s.orientation (plan.room.depth s.orientation) c) =
        ([], halfStep s.orientation (plan.room.depth s.orientation) c) := by
      unfold interlayerOf; rw [hi]
    rw [hx] at h hrest
    simp only [Res.ok.injEq, List.append_nil] at h
    have h' : ls = here :: rest := h.symm
    subst h'
    obtain ⟨q1, q2⟩ := layerLoop_plain hi hbl left _ _ rest hrest
    refine ⟨by simp [q1], ?_⟩
    intro l hm
    rcases List.mem_cons.mp hm with rfl | hm
    · exact ⟨p3, p2, p5, p6⟩
    · have := q2 l hm
      rw [halfStep_across, halfStep_across] at this
      exact this

theorem adjoining_pos {b p : ℚ} : ∀ (ls : List Layer), Adjoining ls → (∀ l ∈ ls, l.thick = b) →
    (∀ x, ls.head? = some x → x.pos = p) → ∀ (k : Nat) (l : Layer), ls[k]? = some l →
      |l.pos - (p + k * b)| ≤ k * (1 / 10 ^ 9)
  | [], _, _, _, k, l, h => by simp at h
  | [x], _, _, hp, k, l, h => by
    cases k with
    | zero =>
      simp only [List.getElem?_cons_zero, Option.some.injEq] at h
      subst h
      rw [hp x rfl]
      simp
    | succ k => simp at h
  | x :: y :: rest, ha, hb, hp, k, l, h => by
    cases k with
    | zero =>
      simp only [List.getElem?_cons_zero, Option.some.injEq] at h
      subst h
      rw [hp x rfl]
      simp
    | succ k =>
      rw [List.getElem?_cons_succ] at h
      have ih := adjoining_pos (b := b) (p := y.pos) (y :: rest) ha.2 (fun l hl => hb l (List.mem_cons_of_mem _ hl))
        (by simp) k l h
      have h1 := ha.1
      rw [hp x rfl, hb x List.mem_cons_self, hb y (by simp)] at h1
      push_cast
      rw [abs_le] at ih h1 ⊢
      constructor <;> linarith [ih.1, ih.2, h1.1, h1.2]

theorem firstCentre_along (s : SectionIn) {room : Room} {n : Nat} {b : ℚ} (hb : room.depth s.orientation = b) :
    |along s.orientation (firstCentre s room n) - (sectionStart s + alignmentGap s n b + b / 2)| ≤ 1 / (2 * 10 ^ 9) := by
  unfold firstCentre sectionStart alignmentGap sectionDepth
  unfold Room.depth at hb
  cases ho : s.orientation with
  | overlapping =>
    rw [ho] at hb
    simp only [] at hb
    have h := roundFloat_near (s.centre.1 - s.dims.1 / 2 + room.width / 2) 9
    simp only [along, add_zero]
    rw [hb] at h ⊢
    norm_num at h ⊢
    exact h
  | contiguous =>
    rw [ho] at hb
    simp only [] at hb
    subst hb
    have key : ∀ x y : ℚ, x = -y → |(-roundFloat x 9) - y| ≤ 1 / (2 * 10 ^ 9) := by
      intro x y hxy
      have h := roundFloat_near x 9
      norm_num at h ⊢
      rw [abs_le] at h ⊢
      constructor <;> linarith [h.1, h.2]
    cases s.alignment <;> simp only [along] <;> apply key <;> ring

theorem firstCentre_across (s : SectionIn) (room : Room) (n : Nat) :
    across s.orientation (firstCentre s room n) = roundFloat (across s.orientation s.centre) 9 := by
  unfold firstCentre across
  cases s.orientation <;> rfl

/-! ## C72 -/

/-- C72: the layers of a section, the insulation between them included, are stacked one after another with neither
gap nor overlap above a nanometre, and the first one begins where the alignment asks for. -/
theorem layers_stacked {env : LayerEnv} {s : SectionIn} {ls : List Layer} {plan : LayerPlan} {b : ℚ}
    (h : windLayers env s = .ok ls) (hplan : planLayers env s = .ok plan) (hb : plan.room.depth s.orientation = b) :
    Adjoining ls ∧ ∀ x, ls.head? = some x →
      |(x.pos - x.thick / 2) - (sectionStart s + alignmentGap s plan.count b)| ≤ 1 / (2 * 10 ^ 9) := by
  unfold windLayers at h
  rw [hplan, Res.bind_eq_ok] at h
  obtain ⟨h1, h2, h3, _⟩ := layerLoop_adjoining env s plan _ _ _ ls h
  refine ⟨h1, fun x hx => ?_⟩
  obtain ⟨e1, e2⟩ := h3 x hx
  have := firstCentre_along s (n := plan.count) hb
  rw [e1, e2, hb]
  rw [abs_le] at this ⊢
  constructor <;> linarith [this.1, this.2]

/-- C72: without insulation between layers or connection blocking, layer `k` is at its exact place to within a
nanometre per layer, and centred in the section along the turns. -/
theorem layers_placed {env : LayerEnv} {s : SectionIn} {ls : List Layer} {plan : LayerPlan} {b : ℚ}
    (h : windLayers env s = .ok ls) (hplan : planLayers env s = .ok plan) (hb : plan.room.depth s.orientation = b)
    (hi : s.interlayer = none) (hbl : blocked env s plan.room = false) :
    ls.length = plan.count ∧ ∀ (k : Nat) (l : Layer), ls[k]? = some l →
      |l.pos - (sectionStart s + alignmentGap s ls.length b + (k + 1 / 2) * b)| ≤ (k + 1 : ℚ) * (1 / 10 ^ 9) ∧
      l.thick = b ∧ across s.orientation l.centre = roundFloat (across s.orientation s.centre) 9 := by
  have hh := h
  unfold windLayers at hh
  rw [hplan, Res.bind_eq_ok] at hh
  obtain ⟨h1, h2, h3, _⟩ := layerLoop_adjoining env s plan _ _ _ ls hh
  obtain ⟨h4, h5⟩ := layerLoop_plain hi hbl _ _ _ ls hh
  refine ⟨h4, fun k l hl => ?_⟩
  have hm : l ∈ ls := List.mem_of_getElem? hl
  obtain ⟨_, m2, m3, _⟩ := h5 l hm
  refine ⟨?_, by rw [m2, hb], by rw [m3, firstCentre_across]⟩
  have h6 := adjoining_pos (b := b) ls h1 (fun x hx => by rw [(h5 x hx).2.1, hb]) (fun x hx => (h3 x hx).1) k l hl
  have h7 := firstCentre_along s (n := plan.count) hb
  rw [h4]
  rw [abs_le] at h6 h7 ⊢
  norm_num at h6 h7 ⊢
  constructor <;> linarith [h6.1, h6.2, h7.1, h7.2]

/-- C72: layers that are together no thicker than the section lie inside it, to within a nanometre per layer. -/
theorem layers_inside_section {env : LayerEnv} {s : SectionIn} {ls : List Layer} {plan : LayerPlan} {b : ℚ}
    (h : windLayers env s = .ok ls) (hplan : planLayers env s = .ok plan) (hb : plan.room.depth s.orientation = b)
    (hi : s.interlayer = none) (hbl : blocked env s plan.room = false) (hpb : 0 < b)
    (hroom : (ls.length : ℚ) * b ≤ sectionDepth s) :
    ∀ l ∈ ls, sectionStart s - ls.length * (1 / 10 ^ 9) ≤ l.pos - l.thick / 2 ∧
      l.pos + l.thick / 2 ≤ sectionStart s + sectionDepth s + ls.length * (1 / 10 ^ 9) := by
  obtain ⟨_, hk⟩ := layers_placed h hplan hb hi hbl
  intro l hl
  obtain ⟨k, hlt, rfl⟩ := List.mem_iff_getElem.mp hl
  obtain ⟨p1, p2, _⟩ := hk k _ (List.getElem?_eq_getElem hlt)
  have hgap : 0 ≤ alignmentGap s ls.length b ∧ alignmentGap s ls.length b ≤ sectionDepth s - ls.length * b := by
    unfold alignmentGap
    cases s.orientation <;> cases s.alignment <;> simp only [] <;> constructor <;> linarith
  have hkq : (k : ℚ) + 1 ≤ ls.length := by exact_mod_cast hlt
  have hk0 : (0 : ℚ) ≤ k := by positivity
  rw [p2]
  rw [abs_le] at p1
  have e1 : (k + 1 : ℚ) * (1 / 10 ^ 9) ≤ ls.length * (1 / 10 ^ 9) := by
    apply mul_le_mul_of_nonneg_right hkq; norm_num
  have e2 : ((k : ℚ) + 1) * b ≤ ls.length * b := mul_le_mul_of_nonneg_right hkq hpb.le
  have e3 : 0 ≤ (k : ℚ) * b := mul_nonneg hk0 hpb.le
  constructor <;> nlinarith [p1.1, p1.2, hgap.1, hgap.2]

/-- C72: the six layers of the sample begin at 0 and take 6 of the 10. -/
example : (windLayers plainEnv sampleSection).returns fun ls =>
    ls.map (fun l => l.pos) = [1/2, 3/2, 5/2, 7/2, 9/2, 11/2] := by decide +kernel

example : (planLayers plainEnv sampleSection).returns fun plan =>
    plan.room.depth sampleSection.orientation = 1 ∧ blocked plainEnv sampleSection plan.room = false ∧
    sampleSection.interlayer = none ∧ (plan.count : ℚ) * 1 ≤ sectionDepth sampleSection := by decide +kernel

/-- C72: the alignment does not count the insulation between layers: contiguous layers set against the bottom stick
out of the section by its thickness. -/
theorem layers_bottom_ignores_insulation :
    (windLayers plainEnv { sampleSection with
        orientation := .contiguous, alignment := .outerOrBottom, interlayer := some (1/10), dims := (5, 10) }).returns
      fun ls => ∃ l ∈ ls, sectionStart { sampleSection with orientation := .contiguous, dims := (5, 10) } + 10 + 1/2 ≤
        l.pos + l.thick / 2 := by decide +kernel

end Verif.Winding
