import Verif.Winding.TurnPlaceProps

/-! # C75: no two turns of a coil share space -/

namespace Verif.Winding

open Verif.Round

set_option linter.unusedSimpArgs false

/-! ## Specification -/

/-- The rectangle with centre `c` and size `d` lies inside the one with centre `C` and size `D`, to a tolerance. -/
def Inside (tol : ℚ) (c d C D : ℚ × ℚ) : Prop :=
  |c.1 - C.1| + d.1 / 2 ≤ D.1 / 2 + tol ∧ |c.2 - C.2| + d.2 / 2 ≤ D.2 / 2 + tol

/-- Two rectangles do not overlap, to a tolerance. -/
def Apart (tol : ℚ) (c d c' d' : ℚ × ℚ) : Prop :=
  (d.1 + d'.1) / 2 - tol ≤ |c.1 - c'.1| ∨ (d.2 + d'.2) / 2 - tol ≤ |c.2 - c'.2|

/-- The layers of a section, insulation included, and the space the alignment leaves before them are together no
thicker than the section. -/
def LayersFit (s : SectionIn) (ls : List Layer) (n : Nat) (b : ℚ) : Prop :=
  0 ≤ alignmentGap s n b ∧ alignmentGap s n b + (ls.map Layer.thick).sum ≤ sectionDepth s

/-! ## Rectangles -/

theorem Apart.symm {tol : ℚ} {c d c' d' : ℚ × ℚ} (h : Apart tol c d c' d') : Apart tol c' d' c d := by
  unfold Apart at *
  rw [abs_sub_comm c'.1, abs_sub_comm c'.2, add_comm d'.1, add_comm d'.2]
  exact h

theorem Apart.mono {tol tol' : ℚ} {c d c' d' : ℚ × ℚ} (h : Apart tol c d c' d') (ht : tol ≤ tol') : Apart tol' c d c' d' := by
  unfold Apart at *
  rcases h with h | h
  · left; linarith
  · right; linarith

theorem Inside.mono {tol tol' : ℚ} {c d c' d' : ℚ × ℚ} (h : Inside tol c d c' d') (ht : tol ≤ tol') : Inside tol' c d c' d' :=
  ⟨by linarith [h.1], by linarith [h.2]⟩

/-- Rectangles inside rectangles that are apart are apart. -/
theorem Apart.inside {e t t' : ℚ} {c d C D c' d' C' D' : ℚ × ℚ} (h : Apart e C D C' D') (h1 : Inside t c d C D)
    (h2 : Inside t' c' d' C' D') : Apart (e + t + t') c d c' d' := by
  have tri : ∀ a b x y : ℚ, |x - y| ≤ |a - x| + |a - b| + |b - y| := by
    intro a b x y
    have e1 : x - y = -(a - x) + (a - b) + (b - y) := by ring
    calc |x - y| = |-(a - x) + (a - b) + (b - y)| := by rw [← e1]
      _ ≤ |-(a - x) + (a - b)| + |b - y| := abs_add_le _ _
      _ ≤ |-(a - x)| + |a - b| + |b - y| := by linarith [abs_add_le (-(a - x)) (a - b)]
      _ = |a - x| + |a - b| + |b - y| := by rw [abs_neg]
  obtain ⟨h11, h12⟩ := h1
  obtain ⟨h21, h22⟩ := h2
  rcases h with h | h
  · left; have := tri c.1 c'.1 C.1 C'.1; linarith
  · right; have := tri c.2 c'.2 C.2 C'.2; linarith

/-! ## Layers -/

/-- The length of the layers of a section. -/
def Room.length (o : Orientation) (r : Room) : ℚ :=
  match o with
  | .overlapping => r.height
  | .contiguous => r.width

/-- Conduction layers and the insulation between them share the length and the line of the section. -/
theorem layerLoop_lines {env : LayerEnv} {s : SectionIn} {plan : LayerPlan} (hbl : blocked env s plan.room = false) :
    ∀ (left : Nat) (rem : List ℚ) (c : ℚ × ℚ) (ls : List Layer), layerLoop env s plan left rem c = .ok ls →
      ∀ l ∈ ls, across s.orientation l.centre = across s.orientation c ∧
        l.length = plan.room.length s.orientation ∧
        l.orientation = s.orientation ∧
        (if l.conduction = true then l.thick = plan.room.depth s.orientation else s.interlayer = some l.thick)
  | 0, rem, c, ls, h => by
    simp only [layerLoop, Res.ok.injEq] at h
    subst h
    simp
  | left + 1, rem, c, ls, h => by
    simp only [layerLoop] at h
    obtain ⟨r, _, h⟩ := bind_ok h
    obtain ⟨_, h⟩ := ite_ok (by simp) h
    have hhere : across s.orientation (layerOf env s plan (plan.count - (left + 1)) r.1 r.2 c).centre =
          across s.orientation c ∧
        (layerOf env s plan (plan.count - (left + 1)) r.1 r.2 c).length =
          plan.room.length s.orientation ∧
        (layerOf env s plan (plan.count - (left + 1)) r.1 r.2 c).orientation = s.orientation ∧
        (if (layerOf env s plan (plan.count - (left + 1)) r.1 r.2 c).conduction = true then
          (layerOf env s plan (plan.count - (left + 1)) r.1 r.2 c).thick = plan.room.depth s.orientation
          else s.interlayer = some (layerOf env s plan (plan.count - (left + 1)) r.1 r.2 c).thick) := by
      unfold layerOf Layer.length Layer.thick Room.depth thickness
      simp only [hbl, Bool.false_eq_true, if_false, if_true]
      cases s.orientation <;> simp [Room.length]
    by_cases hz : left = 0
    · rw [if_pos hz, Res.ok.injEq] at h
      subst h
      intro l hl
      rw [List.mem_singleton] at hl
      rw [hl]
      exact hhere
    · rw [if_neg hz] at h
      obtain ⟨rest, hrest, h⟩ := bind_ok h
      simp only [Res.ok.injEq] at h
      subst h
      have hstep : ∀ d (c : ℚ × ℚ), across s.orientation (halfStep s.orientation d c) = across s.orientation c := by
        intro d c; unfold halfStep across; cases s.orientation <;> rfl
      have hx : across s.orientation (interlayerOf s plan.room (plan.count - (left + 1))
          (halfStep s.orientation (plan.room.depth s.orientation) c)).2 = across s.orientation c := by
        unfold interlayerOf
        cases s.interlayer with
        | none => simp only [hstep]
        | some t => simp only [hstep]
      intro l hl
      rcases List.mem_cons.mp hl with rfl | hl
      · exact hhere
      · rcases List.mem_append.mp hl with hl | hl
        · unfold interlayerOf at hl
          cases hi : s.interlayer with
          | none => rw [hi] at hl; simp at hl
          | some t =>
            rw [hi] at hl
            simp only [List.mem_singleton] at hl
            subst hl
            simp only [hstep, true_and, Bool.false_eq_true, if_false]
            unfold Layer.length Layer.thick thickness
            cases s.orientation <;> simp [Room.length]
        · have := layerLoop_lines hbl left _ _ rest hrest l hl
          rw [hstep, hx] at this
          exact this

/-- Where adjoining layers begin and end. -/
theorem adjoining_from : ∀ (rest : List Layer) (x : Layer), Adjoining (x :: rest) → (∀ l ∈ rest, 0 ≤ l.thick) →
    ∀ (k : Nat) (y : Layer), rest[k]? = some y →
      (x.pos + x.thick / 2) - (k + 1 : ℚ) * (1 / 10 ^ 9) ≤ y.pos - y.thick / 2 ∧
      y.pos + y.thick / 2 ≤ (x.pos + x.thick / 2) + (rest.map Layer.thick).sum + (k + 1 : ℚ) * (1 / 10 ^ 9)
  | [], x, _, _, k, y, h => by simp at h
  | z :: rest, x, ha, hn, k, y, h => by
    obtain ⟨h1, h2⟩ := ha
    rw [abs_le] at h1
    have hz := hn z List.mem_cons_self
    have hsum : 0 ≤ (rest.map Layer.thick).sum := by
      apply List.sum_nonneg
      intro a ha
      obtain ⟨l, hl, rfl⟩ := List.mem_map.mp ha
      exact hn l (List.mem_cons_of_mem _ hl)
    rw [List.map_cons, List.sum_cons]
    cases k with
    | zero =>
      simp only [List.getElem?_cons_zero, Option.some.injEq] at h
      subst h
      norm_num at h1 ⊢
      constructor <;> linarith [h1.1, h1.2]
    | succ k =>
      simp only [List.getElem?_cons_succ] at h
      have ih := adjoining_from rest z h2 (fun l hl => hn l (List.mem_cons_of_mem _ hl)) k y h
      push_cast
      norm_num at h1 ih ⊢
      constructor <;> linarith [h1.1, h1.2, ih.1, ih.2]

theorem adjoining_tail {x : Layer} {rest : List Layer} (h : Adjoining (x :: rest)) : Adjoining rest := by
  cases rest with
  | nil => trivial
  | cons y rest => exact h.2

/-- Layers of one section are apart. -/
theorem adjoining_apart {o : Orientation} : ∀ (ls : List Layer), Adjoining ls → (∀ l ∈ ls, 0 ≤ l.thick ∧ l.orientation = o) →
    ls.Pairwise fun x y => Apart (ls.length * (1 / 10 ^ 9)) x.centre x.dims y.centre y.dims
  | [], _, _ => List.Pairwise.nil
  | x :: rest, ha, hn => by
    have hle : ((rest.length : ℕ) : ℚ) ≤ ((x :: rest).length : ℕ) := by simp
    refine List.Pairwise.cons (fun y hy => ?_) ?_
    · obtain ⟨k, hk, rfl⟩ := List.mem_iff_getElem.mp hy
      have hp := (adjoining_from rest x ha (fun l hl => (hn l (List.mem_cons_of_mem _ hl)).1) k _
        (List.getElem?_eq_getElem hk)).1
      have h1 := (hn x List.mem_cons_self).2
      have h2 := (hn _ (List.mem_cons_of_mem _ hy)).2
      have hkq : (k : ℚ) + 1 ≤ ((x :: rest).length : ℕ) := by
        rw [List.length_cons]; push_cast
        have : (k : ℚ) ≤ rest.length := by exact_mod_cast hk.le
        linarith
      have hm : ((k : ℚ) + 1) * (1 / 10 ^ 9) ≤ ((x :: rest).length : ℕ) * (1 / 10 ^ 9) :=
        mul_le_mul_of_nonneg_right hkq (by norm_num)
      unfold Layer.pos Layer.thick along thickness at hp
      rw [h1, h2] at hp
      unfold Apart
      cases o with
      | overlapping =>
        simp only [] at hp
        left
        rw [abs_sub_comm]
        exact le_trans (by linarith) (le_abs_self _)
      | contiguous =>
        simp only [] at hp
        right
        exact le_trans (by linarith) (le_abs_self _)
    · refine (adjoining_apart rest (adjoining_tail ha) fun l hl => hn l (List.mem_cons_of_mem _ hl)).imp fun h => ?_
      exact h.mono (mul_le_mul_of_nonneg_right hle (by norm_num))

/-- The layers of a section: apart from each other and inside it. -/
theorem layers_of_section {env : LayerEnv} {s : SectionIn} {ls : List Layer} {plan : LayerPlan} {a b : ℚ}
    (h : windLayers env s = .ok ls) (hplan : planLayers env s = .ok plan) (hbl : blocked env s plan.room = false)
    (ha : wireAlong s = some a) (hac : wireAcross s = some b) (hpa : 0 < a) (hpb : 0 < b)
    (hl0 : 0 ≤ layerLength s) (hd0 : 0 ≤ sectionDepth s) (hins : ∀ t, s.interlayer = some t → 0 ≤ t) :
    (ls.Pairwise fun x y => Apart (ls.length * (1 / 10 ^ 9)) x.centre x.dims y.centre y.dims) ∧
    (∀ l ∈ ls, l.orientation = s.orientation ∧ (l.conduction = true → l.thick = b) ∧ l.length = layerLength s) ∧
    (LayersFit s ls plan.count b → ∀ l ∈ ls, Inside (ls.length * (1 / 10 ^ 9)) l.centre l.dims s.centre s.dims) := by
  have hroom : roomFor env s = .ok plan.room := by
    unfold planLayers at hplan
    obtain ⟨_, hplan⟩ := ite_ok (by simp) hplan
    obtain ⟨phys, _, hplan⟩ := bind_ok hplan
    obtain ⟨room, hroom, hplan⟩ := bind_ok hplan
    obtain ⟨n₀, _, hplan⟩ := bind_ok hplan
    split at hplan
    · obtain ⟨_, hplan⟩ := ite_ok (by simp) hplan
      obtain ⟨st, _, hplan⟩ := bind_ok hplan
      simp only [Res.ok.injEq] at hplan
      rw [← hplan]; exact hroom
    · obtain ⟨n, _, hplan⟩ := bind_ok hplan
      obtain ⟨st, _, hplan⟩ := bind_ok hplan
      simp only [Res.ok.injEq] at hplan
      rw [← hplan]; exact hroom
  obtain ⟨r, hr, _, _, _, hdep, hlen⟩ := roomFor_spec (env := env) ha hac hpa hpb hl0 hd0
  rw [hroom, Res.ok.injEq] at hr
  rw [← hr] at hdep hlen
  have hlen : plan.room.length s.orientation = layerLength s := by
    rw [← hlen]; unfold Room.length; cases s.orientation <;> rfl
  have hh := h
  unfold windLayers at hh
  rw [hplan, Res.bind_eq_ok] at hh
  have hlines := layerLoop_lines hbl _ _ _ ls hh
  obtain ⟨hadj, hfirst⟩ := layers_stacked h hplan hdep
  have hthick : ∀ l ∈ ls, 0 ≤ l.thick := by
    intro l hl
    have := (hlines l hl).2.2.2
    split at this
    · rw [this, hdep]; exact hpb.le
    · exact hins _ this
  refine ⟨adjoining_apart ls hadj fun l hl => ⟨hthick l hl, (hlines l hl).2.2.1⟩, fun l hl => ⟨(hlines l hl).2.2.1, ?_, ?_⟩, ?_⟩
  · intro hc
    have := (hlines l hl).2.2.2
    rw [if_pos hc] at this
    rw [this, hdep]
  · rw [(hlines l hl).2.1, hlen]
  · intro ⟨hg0, hg1⟩ l hl
    -- along the stack
    have hstack : sectionStart s - ls.length * (1 / 10 ^ 9) ≤ l.pos - l.thick / 2 ∧
        l.pos + l.thick / 2 ≤ sectionStart s + sectionDepth s + ls.length * (1 / 10 ^ 9) := by
      cases hls : ls with
      | nil => rw [hls] at hl; simp at hl
      | cons x rest =>
        have hx := hfirst x (by rw [hls]; rfl)
        rw [abs_le] at hx
        rw [hls] at hadj hl hg1
        have hxt := hthick x (by rw [hls]; exact List.mem_cons_self)
        have hrt : ∀ l ∈ rest, 0 ≤ l.thick := fun l hl => hthick l (by rw [hls]; exact List.mem_cons_of_mem _ hl)
        have hsum : 0 ≤ (rest.map Layer.thick).sum := by
          apply List.sum_nonneg
          intro a ha
          obtain ⟨l, hl, rfl⟩ := List.mem_map.mp ha
          exact hrt l hl
        rw [List.map_cons, List.sum_cons] at hg1
        have hrl : (0 : ℚ) ≤ rest.length := by positivity
        rw [List.length_cons]
        push_cast
        rcases List.mem_cons.mp hl with rfl | hl
        · norm_num at hx ⊢
          constructor <;> nlinarith [hx.1, hx.2]
        · obtain ⟨k, hk, rfl⟩ := List.mem_iff_getElem.mp hl
          have hp := adjoining_from rest x hadj hrt k _ (List.getElem?_eq_getElem hk)
          have hkq : (k : ℚ) + 1 ≤ rest.length := by exact_mod_cast hk
          norm_num at hx hp ⊢
          constructor <;> nlinarith [hx.1, hx.2, hp.1, hp.2]
    -- along the turns
    have hline := (hlines l hl).1
    rw [firstCentre_across] at hline
    have hlenl : l.length = layerLength s := by rw [(hlines l hl).2.1, hlen]
    have hnear := roundFloat_near (across s.orientation s.centre) 9
    rw [← hline] at hnear
    have hpos : (1 : ℚ) ≤ ls.length := by
      have : 0 < ls.length := List.length_pos_of_mem hl
      exact_mod_cast this
    have htol : (1 : ℚ) / (2 * 10 ^ 9) ≤ ls.length * (1 / 10 ^ 9) := by
      norm_num; linarith
    have ho := (hlines l hl).2.2.1
    unfold sectionStart sectionDepth along at hstack
    unfold Layer.pos Layer.thick along thickness at hstack
    unfold Layer.length layerLength at hlenl
    unfold across at hnear
    unfold Inside
    rw [ho] at hstack hlenl
    generalize (ls.length : ℚ) * (1 / 10 ^ 9) = tol at *
    cases hso : s.orientation with
    | overlapping =>
      rw [hso] at hstack hlenl hnear
      simp only [] at hstack hlenl hnear
      refine ⟨?_, by rw [hlenl]; linarith⟩
      have : |l.centre.1 - s.centre.1| ≤ s.dims.1 / 2 + tol - l.dims.1 / 2 := by
        rw [abs_le]; constructor <;> linarith [hstack.1, hstack.2]
      linarith
    | contiguous =>
      rw [hso] at hstack hlenl hnear
      simp only [] at hstack hlenl hnear
      refine ⟨by rw [hlenl]; linarith, ?_⟩
      have : |l.centre.2 - s.centre.2| ≤ s.dims.2 / 2 + tol - l.dims.2 / 2 := by
        rw [abs_le]; constructor <;> linarith [hstack.1, hstack.2]
      linarith

/-! ## Sections -/

/-- `x` comes no earlier than `e` in the direction sections are stacked. -/
def After (o : Orientation) (e x : ℚ) : Prop := match o with
  | .overlapping => e ≤ x
  | .contiguous => x ≤ e

/-- Sections stacked one after another are apart. -/
theorem stacked_apart {o : Orientation} : ∀ (secs : List Section) (e : ℚ), StackedFrom o e secs →
    (∀ s ∈ secs, 0 ≤ extent o s) →
    (∀ s ∈ secs, After o e (beginEdge o s)) ∧
    secs.Pairwise fun x y => Apart 0 x.centre x.dims y.centre y.dims
  | [], _, _, _ => ⟨by simp, List.Pairwise.nil⟩
  | s :: rest, e, h, hn => by
    obtain ⟨h1, h2⟩ := h
    obtain ⟨ih1, ih2⟩ := stacked_apart rest _ h2 fun x hx => hn x (List.mem_cons_of_mem _ hx)
    have hs := hn s List.mem_cons_self
    have hend : After o e (endEdge o s) := by
      rw [← h1]
      unfold extent at hs
      unfold After
      cases o <;> simp only [thickness, beginEdge, endEdge] at hs ⊢ <;> linarith
    refine ⟨fun x hx => ?_, List.Pairwise.cons (fun x hx => ?_) ih2⟩
    · rcases List.mem_cons.mp hx with rfl | hx
      · unfold After
        cases o <;> simp only [] <;> rw [h1]
      · have := ih1 x hx
        unfold After at this hend ⊢
        cases o <;> simp only [] at this hend ⊢ <;> linarith
    · have := ih1 x hx
      unfold Apart
      unfold After at this
      cases o with
      | overlapping =>
        simp only [beginEdge, endEdge] at this
        left; rw [abs_sub_comm]; exact le_trans (by linarith) (le_abs_self _)
      | contiguous =>
        simp only [beginEdge, endEdge] at this
        right; exact le_trans (by linarith) (le_abs_self _)

/-- C75: the sections of a coil with one group do not overlap. -/
theorem sections_apart {c : Ctx} {g : Group} {prop : Nat → ℚ} {pattern : List Nat} {reps : Nat} {secs : List Section}
    (h : windRectangularSections c (some [g]) prop pattern reps = .ok secs)
    (hn : ∀ s ∈ secs, 0 ≤ extent g.orientation s) :
    secs.Pairwise fun x y => Apart 0 x.centre x.dims y.centre y.dims :=
  (stacked_apart secs _ (sections_stacked h) hn).2

/-! ## The coil -/

/-- The wire of a section fits: it has a size, which is the one turns have, the section is not negative, connections
take no space, and the layers, at most `N` with insulation, are no thicker than the section. -/
def SectionFits (env : LayerEnv) (wire : Nat → ℚ × ℚ) (N : Nat) (x : Nat × SectionIn) : Prop :=
  (planLayers env x.2).returns fun plan => (windLayers env x.2).returns fun ls =>
    blocked env x.2 plan.room = false ∧ wireAlong x.2 = some (across x.2.orientation (wire x.1)) ∧
      wireAcross x.2 = some (thickness x.2.orientation (wire x.1)) ∧ 0 < across x.2.orientation (wire x.1) ∧
      0 < thickness x.2.orientation (wire x.1) ∧ 0 ≤ layerLength x.2 ∧ 0 ≤ sectionDepth x.2 ∧
      0 ≤ x.2.interlayer.getD 0 ∧ LayersFit x.2 ls plan.count (thickness x.2.orientation (wire x.1)) ∧ ls.length ≤ N

instance (s : SectionIn) (ls : List Layer) (n : Nat) (b : ℚ) : Decidable (LayersFit s ls n b) :=
  inferInstanceAs (Decidable (_ ∧ _))

instance (env : LayerEnv) (wire : Nat → ℚ × ℚ) (N : Nat) (x : Nat × SectionIn) : Decidable (SectionFits env wire N x) := by
  unfold SectionFits
  infer_instance

theorem windAllLayers_apart (env : LayerEnv) (wire : Nat → ℚ × ℚ) (N : Nat) :
    ∀ (ins : List (Nat × SectionIn)) (k : Nat) (r : List (Nat × Nat × Layer)), windAllLayers env ins k = .ok r →
      (∀ x ∈ ins, SectionFits env wire N x) →
      (ins.Pairwise fun x y => Apart 0 x.2.centre x.2.dims y.2.centre y.2.dims) →
      (∀ y ∈ r, ∃ x ∈ ins, y.1 = x.1 ∧ Inside (N * (1 / 10 ^ 9)) y.2.2.centre y.2.2.dims x.2.centre x.2.dims ∧
        (y.2.2.conduction = true → y.2.2.thick = thickness y.2.2.orientation (wire y.1) ∧
          0 < across y.2.2.orientation (wire y.1))) ∧
      r.Pairwise fun y y' => Apart (2 * N * (1 / 10 ^ 9)) y.2.2.centre y.2.2.dims y'.2.2.centre y'.2.2.dims
  | [], k, r, h, _, _ => by
    simp only [windAllLayers, Res.ok.injEq] at h
    subst h
    exact ⟨by simp, List.Pairwise.nil⟩
  | x :: ins, k, r, h, hf, hp => by
    rw [windAllLayers] at h
    obtain ⟨ls, hls, h⟩ := bind_ok h
    obtain ⟨r', hr', h⟩ := bind_ok h
    simp only [Res.ok.injEq] at h
    subst h
    rw [List.pairwise_cons] at hp
    obtain ⟨ih1, ih2⟩ := windAllLayers_apart env wire N ins (k + 1) r' hr'
      (fun y hy => hf y (List.mem_cons_of_mem _ hy)) hp.2
    obtain ⟨plan, f2, ls', f1, f3, f4, f5, f6, f7, f8, f9, f10, f11, f12⟩ := hf x List.mem_cons_self
    rw [hls, Res.ok.injEq] at f1
    subst f1
    obtain ⟨g1, g2, g3⟩ := layers_of_section hls f2 f3 f4 f5 f6 f7 f8 f9
      (fun t ht => by rw [ht] at f10; exact f10)
    have hN : (ls.length : ℚ) * (1 / 10 ^ 9) ≤ N * (1 / 10 ^ 9) :=
      mul_le_mul_of_nonneg_right (by exact_mod_cast f12) (by norm_num)
    have hN0 : (0 : ℚ) ≤ N * (1 / 10 ^ 9) := by positivity
    have hin : ∀ l ∈ ls, Inside (N * (1 / 10 ^ 9)) l.centre l.dims x.2.centre x.2.dims := fun l hl =>
      (g3 f11 l hl).mono hN
    constructor
    · intro y hy
      rcases List.mem_append.mp hy with hy | hy
      · obtain ⟨l, hl, rfl⟩ := List.mem_map.mp hy
        refine ⟨x, List.mem_cons_self, rfl, hin l hl, fun hc => ?_⟩
        obtain ⟨q1, q2, _⟩ := g2 l hl
        simp only [q1]
        exact ⟨q2 hc, f6⟩
      · obtain ⟨z, hz, hz'⟩ := ih1 y hy
        exact ⟨z, List.mem_cons_of_mem _ hz, hz'⟩
    · rw [List.pairwise_append]
      refine ⟨?_, ih2, ?_⟩
      · rw [List.pairwise_map]
        refine g1.imp fun hh => hh.mono ?_
        linarith
      · intro y hy y' hy'
        obtain ⟨l, hl, rfl⟩ := List.mem_map.mp hy
        obtain ⟨z, hz, _, hz', _⟩ := ih1 y' hy'
        refine (Apart.inside (hp.1 z hz) (hin l hl) hz').mono ?_
        linarith

/-- A turn lies inside its layer. -/
theorem turn_inside {env : TurnEnv} {ls : List LayerIn} {ts : List Turn} (h : windTurns env ls = .ok ts) {k : Nat}
    {l : LayerIn} (hl : ls[k]? = some l) (hg : GoodLayer env l) (hT : 0 < env.turns l.winding)
    (hb : env.turns l.winding < 10 ^ 9) (hw : 0 ≤ l.turnSize) (hfit : l.count env * l.turnSize ≤ l.length)
    (hth : thickness l.orientation l.wire = thickness l.orientation l.dims) {t : Turn} (ht : t ∈ layerTurns k ts) :
    Inside (3 / (2 * 10 ^ 9)) t.centre t.dims l.centre l.dims := by
  obtain ⟨tol, htol, _, hin⟩ := turns_inside_layer h hl hg hT hb hw hfit
  obtain ⟨_, low, d, _, _, _, hall⟩ := turns_placed h hl hg hT hb
  obtain ⟨m, hm, rfl⟩ := List.mem_iff_getElem.mp ht
  obtain ⟨p1, p2, p3, _⟩ := hall m _ (List.getElem?_eq_getElem hm)
  obtain ⟨q1, q2⟩ := hin _ ht
  have h9 : (1 : ℚ) / (2 * 10 ^ 9) ≤ 3 / (2 * 10 ^ 9) := by norm_num
  generalize (layerTurns k ts)[m] = t at *
  unfold Inside
  rw [p2]
  unfold along at p3
  unfold Turn.row LayerIn.turnSize LayerIn.middle LayerIn.length across at q1 q2
  unfold thickness at hth
  cases ho : l.orientation with
  | overlapping =>
    rw [ho] at p3 q1 q2 hth
    simp only [] at p3 q1 q2 hth
    refine ⟨by rw [hth]; linarith, ?_⟩
    have : |t.centre.2 - l.centre.2| ≤ l.dims.2 / 2 + tol - l.wire.2 / 2 := by
      rw [abs_le]; constructor <;> linarith
    linarith
  | contiguous =>
    rw [ho] at p3 q1 q2 hth
    simp only [] at p3 q1 q2 hth
    rw [neg_sub_neg, abs_sub_comm] at p3
    refine ⟨?_, by rw [hth]; linarith⟩
    have : |t.centre.1 - l.centre.1| ≤ l.dims.1 / 2 + tol - l.wire.1 / 2 := by
      rw [abs_le]; constructor <;> linarith
    linarith

/-- Turns of one layer do not overlap. -/
theorem layer_turns_apart {env : TurnEnv} {ls : List LayerIn} {ts : List Turn} (h : windTurns env ls = .ok ts) {k : Nat}
    {l : LayerIn} (hl : ls[k]? = some l) (hg : GoodLayer env l) (hT : 0 < env.turns l.winding)
    (hb : env.turns l.winding < 10 ^ 9) (hw : 0 ≤ l.turnSize) :
    (layerTurns k ts).Pairwise fun t t' => Apart 0 t.centre t.dims t'.centre t'.dims := by
  obtain ⟨_, low, d, _, _, _, hall⟩ := turns_placed h hl hg hT hb
  rw [List.pairwise_iff_getElem]
  intro i j hi hj hij
  have := turns_apart h hl hg hT hb hw hij.le (List.getElem?_eq_getElem hi) (List.getElem?_eq_getElem hj)
  have d1 := (hall i _ (List.getElem?_eq_getElem hi)).2.1
  have d2 := (hall j _ (List.getElem?_eq_getElem hj)).2.1
  have hij' : (1 : ℚ) ≤ (j : ℚ) - i := by
    have : (i : ℚ) + 1 ≤ j := by exact_mod_cast hij
    linarith
  have hge : l.turnSize ≤ |((layerTurns k ts)[j]).row l - ((layerTurns k ts)[i]).row l| := by
    refine le_trans ?_ this
    nlinarith
  unfold Apart
  rw [d1, d2]
  unfold LayerIn.turnSize Turn.row across at hge
  cases ho : l.orientation with
  | overlapping =>
    rw [ho] at hge
    simp only [] at hge
    right; rw [abs_sub_comm]; linarith
  | contiguous =>
    rw [ho] at hge
    simp only [] at hge
    left; rw [abs_sub_comm]; linarith

/-- C75, from layers to turns: when sections do not overlap, layers fit in their sections and turns in their layers, no
two turns of the coil overlap by more than the nanometres rounding adds up to. -/
theorem turns_apart_in_coil {lenv : LayerEnv} {tenv : TurnEnv} {wire : Nat → ℚ × ℚ} {N : Nat}
    {ins : List (Nat × SectionIn)} {ls : List (Nat × Nat × Layer)} {ts : List Turn}
    (hap : ins.Pairwise fun x y => Apart 0 x.2.centre x.2.dims y.2.centre y.2.dims)
    (hfit : ∀ x ∈ ins, SectionFits lenv wire N x) (hls : windAllLayers lenv ins 0 = .ok ls)
    (hts : windTurns tenv ((ls.filter fun x => x.2.2.conduction).map (LayerIn.ofLayer wire)) = .ok ts)
    (hgood : ∀ l ∈ (ls.filter fun x => x.2.2.conduction).map (LayerIn.ofLayer wire), GoodLayer tenv l ∧
      0 < tenv.turns l.winding ∧ tenv.turns l.winding < 10 ^ 9 ∧ l.count tenv * l.turnSize ≤ l.length) :
    ts.Pairwise fun t t' => Apart ((2 * N + 3) * (1 / 10 ^ 9)) t.centre t.dims t'.centre t'.dims := by
  obtain ⟨hin, hpair⟩ := windAllLayers_apart lenv wire N ins 0 ls hls hfit hap
  have hpairL : ((ls.filter fun x => x.2.2.conduction).map (LayerIn.ofLayer wire)).Pairwise
      fun l l' => Apart (2 * N * (1 / 10 ^ 9)) l.centre l.dims l'.centre l'.dims := by
    rw [List.pairwise_map]
    exact hpair.filter _
  have hthick : ∀ l ∈ (ls.filter fun x => x.2.2.conduction).map (LayerIn.ofLayer wire),
      thickness l.orientation l.wire = thickness l.orientation l.dims ∧ 0 ≤ l.turnSize := by
    intro l hl
    obtain ⟨y, hy, rfl⟩ := List.mem_map.mp hl
    obtain ⟨hy1, hy2⟩ := List.mem_filter.mp hy
    obtain ⟨x, _, _, _, hx⟩ := hin y hy1
    obtain ⟨e1, e2⟩ := hx (by simpa using hy2)
    unfold Layer.thick at e1
    refine ⟨e1.symm, ?_⟩
    unfold across at e2
    unfold LayerIn.turnSize LayerIn.ofLayer
    simp only []
    cases ho : y.2.2.orientation <;> rw [ho] at e2 <;> exact e2.le
  generalize (ls.filter fun x => x.2.2.conduction).map (LayerIn.ofLayer wire) = L at *
  have hrange := (windTurnsFrom_blocks tenv L _ _ _ ts hts).1
  have hlayer : ∀ t ∈ ts, ∃ l, L[t.layer]? = some l ∧ l ∈ L := by
    intro t ht
    have := (hrange t ht).2
    rw [Nat.zero_add] at this
    exact ⟨L[t.layer], List.getElem?_eq_getElem this, List.getElem_mem this⟩
  have hmemk : ∀ t ∈ ts, t ∈ layerTurns t.layer ts := fun t ht => List.mem_filter.mpr ⟨ht, by simp⟩
  have hinside : ∀ t ∈ ts, ∀ l, L[t.layer]? = some l → Inside (3 / (2 * 10 ^ 9)) t.centre t.dims l.centre l.dims := by
    intro t ht l hl
    have hlm := List.mem_of_getElem? hl
    obtain ⟨g1, g2, g3, g4⟩ := hgood l hlm
    exact turn_inside hts hl g1 g2 g3 (hthick l hlm).2 g4 (hthick l hlm).1 (hmemk t ht)
  have hN0 : (0 : ℚ) ≤ (2 * N + 3) * (1 / 10 ^ 9) := by positivity
  rw [List.pairwise_iff_forall_sublist]
  intro t t' hsub
  have hm : t ∈ ts := hsub.subset (by simp)
  have hm' : t' ∈ ts := hsub.subset (by simp)
  obtain ⟨l, hl, hlm⟩ := hlayer t hm
  obtain ⟨l', hl', hlm'⟩ := hlayer t' hm'
  by_cases hk : t.layer = t'.layer
  · have hs2 : [t, t'].Sublist (layerTurns t.layer ts) := by
      have := hsub.filter fun x : Turn => decide (x.layer = t.layer)
      simpa [hk, layerTurns] using this
    obtain ⟨g1, g2, g3, _⟩ := hgood l hlm
    have := (List.pairwise_iff_forall_sublist.mp (layer_turns_apart hts hl g1 g2 g3 (hthick l hlm).2)) hs2
    exact this.mono hN0
  · have hLap : Apart (2 * N * (1 / 10 ^ 9)) l.centre l.dims l'.centre l'.dims := by
      obtain ⟨b1, c1⟩ := List.getElem?_eq_some_iff.mp hl
      obtain ⟨b2, c2⟩ := List.getElem?_eq_some_iff.mp hl'
      rw [List.pairwise_iff_getElem] at hpairL
      rcases Nat.lt_or_gt_of_ne hk with hlt | hlt
      · have := hpairL _ _ b1 b2 hlt
        rw [c1, c2] at this
        exact this
      · have := hpairL _ _ b2 b1 hlt
        rw [c1, c2] at this
        exact this.symm
    refine (hLap.inside (hinside t hm l hl) (hinside t' hm' l' hl')).mono ?_
    norm_num
    linarith

/-- C75: the sections as the layer winder reads them, place and size included. -/
def DescribesPlace (c : Ctx) (s : Section) (x : Nat × SectionIn) : Prop :=
  Describes c s x ∧ x.2.centre = s.centre ∧ x.2.dims = s.dims

/-- C75: no two turns of a coil with one group of windings, wound in a rectangular window without real winding
geometry, overlap when layers fit in their sections and turns in their layers, but for the nanometres rounding adds up
to. -/
theorem turns_never_overlap {c : Ctx} {g : Group} {prop : Nat → ℚ} {pattern : List Nat} {reps : Nat} {secs : List Section}
    (hsecs : windRectangularSections c (some [g]) prop pattern reps = .ok secs)
    (hn : ∀ s ∈ secs, 0 ≤ extent g.orientation s)
    (hb : pattern.length * reps ≤ 2 * 10 ^ 10)
    (hT : ∀ w ∈ pattern, 0 < c.turns w ∧ c.turns w < 10 ^ 9 ∧ c.turns w * c.parallels w ≤ 2 * 10 ^ 10)
    {lenv : LayerEnv} (hreal : lenv.real = false) {ins : List (Nat × SectionIn)}
    (hins : List.Forall₂ (DescribesPlace c) (secs.filter fun s => s.winding.isSome) ins)
    {wire : Nat → ℚ × ℚ} {N : Nat} (hfit : ∀ x ∈ ins, SectionFits lenv wire N x)
    {ls : List (Nat × Nat × Layer)} (hls : windAllLayers lenv ins 0 = .ok ls)
    {tenv : TurnEnv} (ht : tenv.turns = c.turns) (hp : tenv.parallels = c.parallels) {ts : List Turn}
    (hts : windTurns tenv ((ls.filter fun x => x.2.2.conduction).map (LayerIn.ofLayer wire)) = .ok ts)
    (hlay : ∀ l ∈ (ls.filter fun x => x.2.2.conduction).map (LayerIn.ofLayer wire),
      l.count tenv * l.turnSize ≤ l.length) :
    ts.Pairwise fun t t' => Apart ((2 * N + 3) * (1 / 10 ^ 9)) t.centre t.dims t'.centre t'.dims := by
  have hd : List.Forall₂ (Describes c) (secs.filter fun s => s.winding.isSome) ins := hins.imp fun _ _ h => h.1
  have hap : ins.Pairwise fun x y => Apart 0 x.2.centre x.2.dims y.2.centre y.2.dims := by
    have hs := (sections_apart hsecs hn).filter fun s => s.winding.isSome
    generalize (secs.filter fun s => s.winding.isSome) = F at hs hins
    clear hfit hls hd
    induction hins with
    | nil => exact List.Pairwise.nil
    | cons hab hrest ih =>
      rw [List.pairwise_cons] at hs
      refine List.Pairwise.cons (fun y hy => ?_) (ih hs.2)
      obtain ⟨i, hi, rfl⟩ := List.mem_iff_getElem.mp hy
      have hi' := hrest.length_eq
      have hr := (List.forall₂_iff_get.mp hrest).2 i (by omega) hi
      simp only [List.get_eq_getElem] at hr
      rw [hab.2.1, hab.2.2, hr.2.1, hr.2.2]
      exact hs.1 _ (List.getElem_mem _)
  have hgood := coil_layers_good (wire := wire) hsecs hb hT hreal hd hls ht hp
  refine turns_apart_in_coil hap hfit hls hts fun l hl => ?_
  obtain ⟨h1, h2⟩ := hgood l hl
  rw [ht]
  exact ⟨h2, (hT _ h1).1, (hT _ h1).2.1, hlay l hl⟩

/-- The sample coil meets the conditions: sections not negative, layers in their sections and turns in their layers. -/
example : (windRectangularSections sample (some [sampleGroup]) (fun _ => 1/2) [0, 1] 3).returns fun secs =>
    (∀ s ∈ secs, 0 ≤ extent sampleGroup.orientation s) ∧
    (∀ x ∈ readSections sample secs, SectionFits plainEnv sample.wire 4 x) ∧
    (windAllLayers plainEnv (readSections sample secs) 0).returns fun ls =>
      ∀ l ∈ (ls.filter fun x => x.2.2.conduction).map (LayerIn.ofLayer sample.wire),
        l.count sampleTurnEnv * l.turnSize ≤ l.length := by
  decide +kernel

end Verif.Winding
