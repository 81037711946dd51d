import Verif.Winding.TurnProps
import Verif.Winding.LayerStackProps

/-! # C74: where the turns of a layer lie -/

namespace Verif.Winding

open Verif.Round

set_option linter.unusedSimpArgs false

/-! ## Specification

Turns are placed on the axis layers are not stacked on: upwards when layers overlap, outwards when they are
contiguous (`across`). -/

/-- The size of a turn on the axis it is placed on. -/
def LayerIn.turnSize (l : LayerIn) : ℚ := match l.orientation with | .overlapping => l.wire.2 | .contiguous => l.wire.1

/-- The length of a layer on that axis. -/
def LayerIn.length (l : LayerIn) : ℚ := match l.orientation with | .overlapping => l.dims.2 | .contiguous => l.dims.1

/-- The middle of a layer on that axis. -/
def LayerIn.middle (l : LayerIn) : ℚ := across l.orientation l.centre

/-- The turns of the `k`-th conduction layer, in the order they are wound. -/
def layerTurns (k : Nat) (ts : List Turn) : List Turn := ts.filter fun t => decide (t.layer = k)

/-- The place of a turn on the axis it is placed on. -/
def Turn.row (l : LayerIn) (t : Turn) : ℚ := across l.orientation t.centre

/-- How many parallels are wound side by side in a layer. -/
def LayerIn.bundle (env : TurnEnv) (l : LayerIn) : Nat :=
  if l.style = some .parallels then
    ((List.range (env.parallels l.winding)).filter fun j => decide (share (env.turns l.winding) j l.props ≠ 0)).length
  else 1

/-- The space between bundles when `n` turns, `b` in each bundle, are spread over a layer. -/
def LayerIn.gap (l : LayerIn) (n b : Nat) : ℚ :=
  if l.alignment = .spread ∧ n / b > 1 ∧ n * l.turnSize < l.length then
    (l.length - n * l.turnSize) / (((n / b : ℕ) : ℚ) - 1)
  else 0

/-- Where the lowest of `n` turns ends, given the alignment: at the lower end of the layer, at the distance from the
upper end all turns take, or so that the turns are in the middle. -/
def LayerIn.lowEnd (l : LayerIn) (n b : Nat) : ℚ :=
  match l.orientation, l.alignment with
  | .overlapping, .innerOrTop => l.middle + l.length / 2 - n * l.turnSize
  | .overlapping, .outerOrBottom => l.middle - l.length / 2
  | .contiguous, .innerOrTop => l.middle - l.length / 2
  | .contiguous, .outerOrBottom => l.middle + l.length / 2 - n * l.turnSize
  | _, _ => l.middle - (n * l.turnSize + (((n / b : ℕ) : ℚ) - 1) * l.gap n b) / 2

/-- The centre of the `i`-th of `n` turns from below. -/
def LayerIn.slot (l : LayerIn) (n b i : Nat) : ℚ :=
  l.lowEnd n b + l.turnSize / 2 + i * l.turnSize + ((i / b : ℕ) : ℚ) * l.gap n b

/-- The turns of a layer: whole turns of each parallel. -/
def LayerIn.count (env : TurnEnv) (l : LayerIn) : Nat :=
  (((List.range (env.parallels l.winding)).map fun j => share (env.turns l.winding) j l.props).sum).toNat

/-- Whether a layer is wound from its lower end: the default for layers that overlap; layers of a winding in U order
alternate. -/
def fromBelow (env : TurnEnv) (ls : List LayerIn) (k : Nat) (l : LayerIn) : Bool :=
  xor (decide (l.orientation = .overlapping))
    (env.uOrder l.sec && decide (((ls.take k).filter fun x => decide (x.winding = l.winding)).length % 2 = 1))

/-! ## Lemmas: one layer -/

theorem bundle_counts {env : TurnEnv} {l : LayerIn} {cs : List Nat} (hT : 0 < env.turns l.winding)
    (hb : env.turns l.winding < 10 ^ 9) (hlen : cs.length = env.parallels l.winding)
    (hps : l.props = props (env.turns l.winding) cs)
    (heven : l.style = some .parallels → (∃ c, EvenCounts c cs) ∧ 0 < cs.sum) :
    bundleSize l = l.bundle env ∧ 0 < l.bundle env ∧ l.bundle env ∣ cs.sum := by
  unfold bundleSize LayerIn.bundle
  by_cases hs : l.style = some .parallels
  · rw [if_pos hs, if_pos hs]
    obtain ⟨⟨c, hc⟩, hpos⟩ := heven hs
    have e1 : (l.props.filter fun p => decide (roundFloat p 10 > 0)).length = (cs.filter fun k => decide (0 < k)).length := by
      rw [hps, filter_props hT hb.le]
      simp [props]
    have e2 : ((List.range (env.parallels l.winding)).filter
        fun j => decide (share (env.turns l.winding) j l.props ≠ 0)).length = (cs.filter fun k => decide (0 < k)).length := by
      rw [← hlen, ← filter_length_range cs fun k => decide (0 < k)]
      congr 1
      apply List.filter_congr
      intro j _
      rw [hps, share_props hT]
      simp [Nat.pos_iff_ne_zero]
    rw [e1, e2]
    have hsum := even_sum hc
    have hA : 0 < (cs.filter fun k => decide (0 < k)).length := by
      rcases Nat.eq_zero_or_pos (cs.filter fun k => decide (0 < k)).length with h0 | h0
      · rw [h0] at hsum; omega
      · exact h0
    exact ⟨by omega, hA, ⟨c, by rw [hsum, Nat.mul_comm]⟩⟩
  · rw [if_neg hs, if_neg hs]
    exact ⟨rfl, by omega, one_dvd _⟩

theorem count_counts {env : TurnEnv} {l : LayerIn} {cs : List Nat} (hT : 0 < env.turns l.winding)
    (hlen : cs.length = env.parallels l.winding) (hps : l.props = props (env.turns l.winding) cs) :
    l.count env = cs.sum := by
  unfold LayerIn.count
  have : ((List.range (env.parallels l.winding)).map fun j => share (env.turns l.winding) j l.props) =
      (List.range cs.length).map fun j => ((cs.getD j 0 : ℕ) : ℤ) := by
    rw [hlen]
    apply List.map_congr_left
    intro j _
    rw [hps, share_props hT]
  rw [this, sum_range_getD]
  simp

/-- Nanometre rounding. -/
theorem near9 (x : ℚ) : -(1 / (2 * 10 ^ 9)) ≤ roundFloat x 9 - x ∧ roundFloat x 9 - x ≤ 1 / (2 * 10 ^ 9) :=
  abs_le.mp (roundFloat_near x 9)

/-- Where the first turn goes when a layer is wound from the top or the left. -/
theorem start_near (l : LayerIn) {n b : Nat} (hal : l.alignment ≠ .spread) :
    (match l.orientation with
      | .overlapping => |(placesOf l n).start.2 - (l.lowEnd n b + n * l.turnSize - l.turnSize / 2)| ≤ 1 / 10 ^ 9
      | .contiguous => |(placesOf l n).start.1 - (l.lowEnd n b + l.turnSize / 2)| ≤ 1 / 10 ^ 9) := by
  have hg : l.gap n b = 0 := by unfold LayerIn.gap; rw [if_neg (fun h => hal h.1)]
  unfold LayerIn.lowEnd
  rw [hg]
  unfold LayerIn.middle LayerIn.turnSize LayerIn.length placesOf across
  cases ho : l.orientation <;> cases ha : l.alignment <;> simp only [] <;> try exact absurd ha hal
  · have h1 := near9 (n * l.wire.2)
    have h2 := near9 (l.centre.2 + roundFloat (n * l.wire.2) 9 / 2 - l.wire.2 / 2)
    rw [abs_le]; constructor <;> linarith [h1.1, h1.2, h2.1, h2.2]
  · have h2 := near9 (l.centre.2 + l.dims.2 / 2 - l.wire.2 / 2)
    rw [abs_le]; constructor <;> linarith [h2.1, h2.2]
  · have h1 := near9 (n * l.wire.2)
    have h2 := near9 (l.centre.2 - l.dims.2 / 2 + roundFloat (n * l.wire.2) 9 - l.wire.2 / 2)
    rw [abs_le]; constructor <;> linarith [h1.1, h1.2, h2.1, h2.2]
  · have h1 := near9 (n * l.wire.1)
    have h2 := near9 (l.centre.1 - roundFloat (n * l.wire.1) 9 / 2 + l.wire.1 / 2)
    rw [abs_le]; constructor <;> linarith [h1.1, h1.2, h2.1, h2.2]
  · have h2 := near9 (l.centre.1 - l.dims.1 / 2 + l.wire.1 / 2)
    rw [abs_le]; constructor <;> linarith [h2.1, h2.2]
  · have h1 := near9 (n * l.wire.1)
    have h2 := near9 (l.centre.1 - l.dims.1 / 2 + (l.dims.1 - roundFloat (n * l.wire.1) 9) + l.wire.1 / 2)
    rw [abs_le]; constructor <;> linarith [h1.1, h1.2, h2.1, h2.2]

theorem used_top (l : LayerIn) (n : Nat) : usedPlaces l n true = placesOf l n := rfl

theorem used_bottom (l : LayerIn) (n : Nat) : usedPlaces l n false = (placesOf l n).reversed n := rfl

/-- Whether places from the top or the left are counted from below. -/
def risesWith (o : Orientation) (top : Bool) : Bool := xor (decide (o = .overlapping)) top

/-- The places of a layer: evenly spaced, in one direction or the other, near those of the specification. -/
theorem used_rows (l : LayerIn) {n b : Nat} (hbs : bundleSize l = b) (hb : 0 < b) (hd : b ∣ n) (top : Bool) :
    ∃ d : ℚ, |d| ≤ 3 / (2 * 10 ^ 9) ∧ (l.alignment = .spread → d = 0) ∧
      ∀ m c, m < n → (usedPlaces l n top).spot l.orientation m = .ok c →
        across l.orientation c = l.slot n b (if risesWith l.orientation top = true then m else n - 1 - m) + d ∧
        along l.orientation c = (match l.orientation with
          | .overlapping => roundFloat l.centre.1 9 | .contiguous => -roundFloat l.centre.2 9) := by
  obtain ⟨q, rfl⟩ := hd
  by_cases hal : l.alignment = .spread
  · refine ⟨0, by norm_num, fun _ => rfl, fun m c hm hc => ?_⟩
    rw [add_zero]
    have hq : (b * q + b - 1) / b = q := by
      rw [Nat.add_sub_assoc hb, Nat.mul_add_div hb, Nat.div_eq_of_lt (by omega)]; rfl
    have hq2 : b * q / b = q := by rw [Nat.mul_div_cancel_left _ hb]
    have hne : b * q ≠ 0 := by omega
    have hsp : ∀ (C L w : ℚ), spreadStations C L w (b * q) b ≠ [] := by
      intro C L w h
      have := congrArg List.length h
      rw [spreadStations_length] at this
      exact hne this
    have hget : ∀ (C L w : ℚ) (i : Nat), i < b * q → (spreadStations C L w (b * q) b)[i]? =
        some (C - (((b * q : ℕ) : ℚ) * w + ((q : ℚ) - 1) *
          (if q > 1 ∧ L - ((b * q : ℕ) : ℚ) * w > 0 then (L - ((b * q : ℕ) : ℚ) * w) / ((q : ℚ) - 1) else 0)) / 2 + w / 2 +
          i * w + ((i / b : ℕ) : ℚ) *
          (if q > 1 ∧ L - ((b * q : ℕ) : ℚ) * w > 0 then (L - ((b * q : ℕ) : ℚ) * w) / ((q : ℚ) - 1) else 0)) := by
      intro C L w i hi
      unfold spreadStations
      simp only [hq]
      rw [List.getElem?_map, List.getElem?_range hi]
      rfl
    have hgap : l.gap (b * q) b = if q > 1 ∧ l.length - ((b * q : ℕ) : ℚ) * l.turnSize > 0 then
        (l.length - ((b * q : ℕ) : ℚ) * l.turnSize) / ((q : ℚ) - 1) else 0 := by
      unfold LayerIn.gap
      rw [hq2]
      simp only [hal, true_and, gt_iff_lt, sub_pos]
    have hslot : ∀ i, l.slot (b * q) b i = l.middle - (((b * q : ℕ) : ℚ) * l.turnSize + ((q : ℚ) - 1) * l.gap (b * q) b) / 2 +
        l.turnSize / 2 + i * l.turnSize + ((i / b : ℕ) : ℚ) * l.gap (b * q) b := by
      intro i
      unfold LayerIn.slot LayerIn.lowEnd
      rw [hq2]
      cases l.orientation <;> simp only [hal]
    rw [hslot]
    cases ho : l.orientation with
    | overlapping =>
      have hw : l.turnSize = l.wire.2 := by unfold LayerIn.turnSize; rw [ho]
      have hL : l.length = l.dims.2 := by unfold LayerIn.length; rw [ho]
      have hM : l.middle = l.centre.2 := by unfold LayerIn.middle across; rw [ho]
      rw [hL, hw] at hgap
      rw [hw, hM, hgap]
      cases top with
      | true =>
        have hp : placesOf l (b * q) = ⟨(roundFloat l.centre.1 9, 0), (0, 0),
            (spreadStations l.centre.2 l.dims.2 l.wire.2 (b * q) b).reverse⟩ := by
          unfold placesOf; rw [ho, hal, hbs]
        rw [used_top, hp] at hc
        unfold Places.spot at hc
        simp only [] at hc
        rw [if_neg (by simpa using hsp _ _ _), List.getElem?_reverse (by rw [spreadStations_length]; exact hm),
          spreadStations_length, hget _ _ _ _ (by omega)] at hc
        simp only [ho, Res.ok.injEq] at hc
        rw [← hc]
        refine ⟨?_, rfl⟩
        simp only [risesWith, across]
        rfl
      | false =>
        have hp : (placesOf l (b * q)).reversed (b * q) = ⟨(roundFloat l.centre.1 9, 0), (0, 0),
            spreadStations l.centre.2 l.dims.2 l.wire.2 (b * q) b⟩ := by
          unfold placesOf; rw [ho, hal, hbs]
          simp only [Places.reversed, mul_zero, add_zero, roundFloat_idem, roundFloat_zero, neg_zero, List.reverse_reverse]
        rw [used_bottom, hp] at hc
        unfold Places.spot at hc
        simp only [] at hc
        rw [if_neg (by simpa using hsp _ _ _), hget _ _ _ _ hm] at hc
        simp only [ho, Res.ok.injEq] at hc
        rw [← hc]
        refine ⟨?_, rfl⟩
        simp only [risesWith, across]
        rfl
    | contiguous =>
      have hw : l.turnSize = l.wire.1 := by unfold LayerIn.turnSize; rw [ho]
      have hL : l.length = l.dims.1 := by unfold LayerIn.length; rw [ho]
      have hM : l.middle = l.centre.1 := by unfold LayerIn.middle across; rw [ho]
      rw [hL, hw] at hgap
      rw [hw, hM, hgap]
      cases top with
      | true =>
        have hp : placesOf l (b * q) = ⟨(0, roundFloat l.centre.2 9), (0, 0),
            spreadStations l.centre.1 l.dims.1 l.wire.1 (b * q) b⟩ := by
          unfold placesOf; rw [ho, hal, hbs]
        rw [used_top, hp] at hc
        unfold Places.spot at hc
        simp only [] at hc
        rw [if_neg (by simpa using hsp _ _ _), hget _ _ _ _ hm] at hc
        simp only [ho, Res.ok.injEq] at hc
        rw [← hc]
        refine ⟨?_, rfl⟩
        simp only [risesWith, across]
        rfl
      | false =>
        have hp : (placesOf l (b * q)).reversed (b * q) = ⟨(0, roundFloat l.centre.2 9), (0, 0),
            (spreadStations l.centre.1 l.dims.1 l.wire.1 (b * q) b).reverse⟩ := by
          unfold placesOf; rw [ho, hal, hbs]
          simp only [Places.reversed, mul_zero, add_zero, roundFloat_idem, roundFloat_zero, neg_zero]
        rw [used_bottom, hp] at hc
        unfold Places.spot at hc
        simp only [] at hc
        rw [if_neg (by simpa using hsp _ _ _), List.getElem?_reverse (by rw [spreadStations_length]; exact hm),
          spreadStations_length, hget _ _ _ _ (by omega)] at hc
        simp only [ho, Res.ok.injEq] at hc
        rw [← hc]
        refine ⟨?_, rfl⟩
        simp only [risesWith, across]
        rfl
  · have hg : l.gap (b * q) b = 0 := by unfold LayerIn.gap; rw [if_neg (fun h => hal h.1)]
    have hslot : ∀ i, l.slot (b * q) b i = l.lowEnd (b * q) b + l.turnSize / 2 + i * l.turnSize := by
      intro i; unfold LayerIn.slot; rw [hg]; ring
    have hs := start_near l (n := b * q) (b := b) hal
    have hcast : ∀ m, m < b * q → ((b * q - 1 - m : ℕ) : ℚ) = ((b * q : ℕ) : ℚ) - 1 - m := by
      intro m hm
      rw [Nat.cast_sub (by omega), Nat.cast_sub (by omega)]
      norm_num
    cases ho : l.orientation with
    | overlapping =>
      rw [ho] at hs
      simp only [] at hs
      have hw : l.turnSize = l.wire.2 := by unfold LayerIn.turnSize; rw [ho]
      have hst : (placesOf l (b * q)).stations = [] := by
        unfold placesOf; rw [ho]; cases ha : l.alignment <;> first | rfl | exact absurd ha hal
      have hstep : (placesOf l (b * q)).step = (0, -l.wire.2) := by
        unfold placesOf; rw [ho]; cases ha : l.alignment <;> first | rfl | exact absurd ha hal
      have hx : (placesOf l (b * q)).start.1 = roundFloat l.centre.1 9 := by
        unfold placesOf; rw [ho]; cases ha : l.alignment <;> first | rfl | exact absurd ha hal
      cases top with
      | true =>
        refine ⟨(placesOf l (b * q)).start.2 - (l.lowEnd (b * q) b + ((b * q : ℕ) : ℚ) * l.turnSize - l.turnSize / 2),
          le_trans hs (by norm_num), fun h => absurd h hal, fun m c hm hc => ?_⟩
        rw [used_top] at hc
        unfold Places.spot at hc
        rw [if_pos hst, hstep, Res.ok.injEq] at hc
        rw [← hc]
        refine ⟨?_, by simp [along, hx]⟩
        rw [hslot]
        simp only [risesWith, across, decide_true, Bool.xor_true, Bool.not_true, Bool.false_eq_true, if_false]
        rw [hcast m hm, hw]
        ring
      | false =>
        refine ⟨roundFloat ((placesOf l (b * q)).start.2 + (((b * q : ℕ) : ℚ) - 1) * -l.wire.2) 9 -
          (l.lowEnd (b * q) b + l.turnSize / 2), ?_, fun h => absurd h hal, fun m c hm hc => ?_⟩
        · have h2 := near9 ((placesOf l (b * q)).start.2 + (((b * q : ℕ) : ℚ) - 1) * -l.wire.2)
          rw [hw] at hs ⊢
          rw [abs_le] at hs ⊢
          constructor <;> linarith [hs.1, hs.2, h2.1, h2.2]
        · rw [used_bottom] at hc
          unfold Places.spot at hc
          rw [if_pos (by simp [Places.reversed, hst]), Res.ok.injEq] at hc
          rw [← hc]
          simp only [Places.reversed, hstep, hx, mul_zero, add_zero, neg_zero, neg_neg, roundFloat_idem, along, true_and,
            and_true]
          rw [hslot]
          simp only [risesWith, across, decide_true, Bool.xor_false, if_true]
          rw [hw]
          ring
    | contiguous =>
      rw [ho] at hs
      simp only [] at hs
      have hw : l.turnSize = l.wire.1 := by unfold LayerIn.turnSize; rw [ho]
      have hst : (placesOf l (b * q)).stations = [] := by
        unfold placesOf; rw [ho]; cases ha : l.alignment <;> first | rfl | exact absurd ha hal
      have hstep : (placesOf l (b * q)).step = (l.wire.1, 0) := by
        unfold placesOf; rw [ho]; cases ha : l.alignment <;> first | rfl | exact absurd ha hal
      have hx : (placesOf l (b * q)).start.2 = roundFloat l.centre.2 9 := by
        unfold placesOf; rw [ho]; cases ha : l.alignment <;> first | rfl | exact absurd ha hal
      cases top with
      | true =>
        refine ⟨(placesOf l (b * q)).start.1 - (l.lowEnd (b * q) b + l.turnSize / 2),
          le_trans hs (by norm_num), fun h => absurd h hal, fun m c hm hc => ?_⟩
        rw [used_top] at hc
        unfold Places.spot at hc
        rw [if_pos hst, hstep, Res.ok.injEq] at hc
        rw [← hc]
        refine ⟨?_, by simp [along, hx]⟩
        rw [hslot]
        simp only [risesWith, across, reduceCtorEq, decide_false, Bool.xor_true, Bool.not_false, if_true]
        rw [hw]
        ring
      | false =>
        refine ⟨roundFloat ((placesOf l (b * q)).start.1 + (((b * q : ℕ) : ℚ) - 1) * l.wire.1) 9 -
          (l.lowEnd (b * q) b + l.turnSize / 2 + (((b * q : ℕ) : ℚ) - 1) * l.turnSize), ?_, fun h => absurd h hal,
          fun m c hm hc => ?_⟩
        · have h2 := near9 ((placesOf l (b * q)).start.1 + (((b * q : ℕ) : ℚ) - 1) * l.wire.1)
          rw [hw] at hs ⊢
          rw [abs_le] at hs ⊢
          constructor <;> linarith [hs.1, hs.2, h2.1, h2.2]
        · rw [used_bottom] at hc
          unfold Places.spot at hc
          rw [if_pos (by simp [Places.reversed, hst]), Res.ok.injEq] at hc
          rw [← hc]
          simp only [Places.reversed, hstep, hx, mul_zero, add_zero, neg_zero, neg_neg, roundFloat_idem, along, true_and,
            and_true]
          rw [hslot]
          simp only [risesWith, across, reduceCtorEq, decide_false, Bool.xor_false, Bool.false_eq_true, if_false]
          rw [hcast m hm, hw]
          ring

/-! ## Lemmas: all layers -/

theorem layerTurns_append (k : Nat) (a b : List Turn) : layerTurns k (a ++ b) = layerTurns k a ++ layerTurns k b := by
  simp [layerTurns]

theorem layerTurns_all {k : Nat} {ts : List Turn} (h : ∀ t ∈ ts, t.layer = k) : layerTurns k ts = ts := by
  unfold layerTurns
  rw [List.filter_eq_self]
  intro t ht
  simp [h t ht]

theorem layerTurns_none {k : Nat} {ts : List Turn} (h : ∀ t ∈ ts, t.layer ≠ k) : layerTurns k ts = [] := by
  unfold layerTurns
  rw [List.filter_eq_nil_iff]
  intro t ht
  simp [h t ht]

theorem windTurnsFrom_blocks (env : TurnEnv) : ∀ (ls : List LayerIn) (k : Nat) (s : OrderSt) (count : Nat → Nat → Nat)
    (ts : List Turn), windTurnsFrom env ls k s count = .ok ts →
    (∀ t ∈ ts, k ≤ t.layer ∧ t.layer < k + ls.length) ∧
    ∀ (i : Nat) (l : LayerIn), ls[i]? = some l → ∃ (n : Nat) (top : Bool) (order : List Nat),
      sumTurns (env.turns l.winding) (l.props.take (env.parallels l.winding)) = .ok n ∧
      woundOrder env l = .ok order ∧ (layerTurns (k + i) ts).map (·.parallel) = order ∧
      (∀ (m : Nat) (t : Turn), (layerTurns (k + i) ts)[m]? = some t →
        t.winding = l.winding ∧ t.dims = l.wire ∧ (usedPlaces l n top).spot l.orientation m = .ok t.centre) ∧
      (env.real = false → top = (env.uOrder l.sec && decide
        ((s.ordinal l.winding + ((ls.take i).filter fun x => decide (x.winding = l.winding)).length) % 2 = 1)))
  | [], k, s, count, ts, h => by
    simp only [windTurnsFrom, Res.ok.injEq] at h
    subst h
    simp
  | l :: ls, k, s, count, ts, h => by
    rw [windTurnsFrom] at h
    split at h
    · simp at h
    obtain ⟨n, hn, h⟩ := bind_ok h
    simp only [] at h
    obtain ⟨o, ho, h⟩ := bind_ok h
    obtain ⟨r, hr, h⟩ := bind_ok h
    obtain ⟨ts', hts', h⟩ := bind_ok h
    simp only [Res.ok.injEq] at h
    subst h
    obtain ⟨p1, p2, _, _, p5⟩ := placeTurns_ok env l k _ o 0 count r hr
    obtain ⟨ih1, ih2⟩ := windTurnsFrom_blocks env ls (k + 1) _ _ ts' hts'
    constructor
    · intro t ht
      rcases List.mem_append.mp ht with ht | ht
      · rw [(p2 t ht).2.1, List.length_cons]; omega
      · have := ih1 t ht
        rw [List.length_cons]; omega
    · intro i x hx
      cases i with
      | zero =>
        simp only [List.getElem?_cons_zero, Option.some.injEq] at hx
        subst hx
        refine ⟨n, (startFromTop env l n s).1, o, hn, ho, ?_⟩
        rw [Nat.add_zero, layerTurns_append, layerTurns_all (fun t ht => (p2 t ht).2.1),
          layerTurns_none (fun t ht => by have := (ih1 t ht).1; omega), List.append_nil]
        refine ⟨p1, fun m t ht => ?_, fun hreal => ?_⟩
        · have hm := List.mem_of_getElem? ht
          refine ⟨(p2 t hm).1, (p2 t hm).2.2, ?_⟩
          have := p5 m t ht
          rw [Nat.zero_add] at this
          exact this
        · unfold startFromTop
          simp only [hreal, Bool.false_eq_true, false_and, if_false, Bool.false_bne, List.take_zero, List.filter_nil,
            List.length_nil, Nat.add_zero]
          cases env.uOrder l.sec <;> simp <;> exact decide_eq_decide.mpr Iff.rfl
      | succ i =>
        simp only [List.getElem?_cons_succ] at hx
        obtain ⟨n', top, order, q1, q2, q3, q4, q5⟩ := ih2 i x hx
        have e : k + (i + 1) = k + 1 + i := by omega
        refine ⟨n', top, order, q1, q2, ?_⟩
        rw [e, layerTurns_append, layerTurns_none (fun t ht => by have := (p2 t ht).2.1; omega), List.nil_append]
        refine ⟨q3, q4, fun hreal => ?_⟩
        rw [q5 hreal, List.take_succ_cons, List.filter_cons]
        have hord : (startFromTop env l n s).2.ordinal = upd s.ordinal l.winding (s.ordinal l.winding + 1) := rfl
        rw [hord]
        by_cases hw : l.winding = x.winding
        · rw [hw, upd_self, if_pos (by simp), List.length_cons]
          congr 2
          rw [eq_iff_iff]
          omega
        · rw [upd_other _ _ (fun hc => hw hc.symm), if_neg (by simpa using hw)]

theorem gap_nonneg (l : LayerIn) (n b : Nat) : 0 ≤ l.gap n b := by
  unfold LayerIn.gap
  split
  · rename_i h
    apply div_nonneg
    · linarith [h.2.2]
    · have : (1 : ℚ) < ((n / b : ℕ) : ℚ) := by exact_mod_cast h.2.1
      linarith
  · exact le_refl _

theorem slot_sub (l : LayerIn) (n b i j : Nat) :
    l.slot n b j - l.slot n b i = ((j : ℚ) - i) * l.turnSize + (((j / b : ℕ) : ℚ) - ((i / b : ℕ) : ℚ)) * l.gap n b := by
  unfold LayerIn.slot; ring

theorem slot_apart (l : LayerIn) {n b i j : Nat} (h : i ≤ j) :
    ((j : ℚ) - i) * l.turnSize ≤ l.slot n b j - l.slot n b i := by
  rw [slot_sub]
  have h1 : ((i / b : ℕ) : ℚ) ≤ ((j / b : ℕ) : ℚ) := by exact_mod_cast Nat.div_le_div_right h
  have := mul_nonneg (sub_nonneg.mpr h1) (gap_nonneg l n b)
  linarith

/-! ## C74 -/

/-- C74: the turns of a layer are as many as the layer holds, all of the size of the wire, on the layer's line to half
a nanometre, and each in its slot up to an offset common to the layer, of at most 1.5 nm (none when spread), in order
from below or from above; without real winding geometry the direction is the one asked for. -/
theorem turns_placed {env : TurnEnv} {ls : List LayerIn} {ts : List Turn} (h : windTurns env ls = .ok ts) {k : Nat}
    {l : LayerIn} (hl : ls[k]? = some l) (hg : GoodLayer env l) (hT : 0 < env.turns l.winding)
    (hb : env.turns l.winding < 10 ^ 9) :
    (layerTurns k ts).length = l.count env ∧
    ∃ (low : Bool) (d : ℚ), |d| ≤ 3 / (2 * 10 ^ 9) ∧ (l.alignment = .spread → d = 0) ∧
      (env.real = false → low = fromBelow env ls k l) ∧
      ∀ (m : Nat) (t : Turn), (layerTurns k ts)[m]? = some t →
        t.winding = l.winding ∧ t.dims = l.wire ∧
        |along l.orientation t.centre - along l.orientation l.centre| ≤ 1 / (2 * 10 ^ 9) ∧
        t.row l = l.slot (l.count env) (l.bundle env) (if low = true then m else l.count env - 1 - m) + d := by
  obtain ⟨cs, hlen, hps, hev⟩ := goodLayer_counts hg hT
  obtain ⟨n, top, order, q1, q2, q3, q4, q5⟩ := (windTurnsFrom_blocks env ls _ _ _ ts h).2 k l hl
  rw [Nat.zero_add] at q3 q4
  obtain ⟨o', ho', _, hol⟩ := woundOrder_ok (env := env) (l := l) rfl hT hb hlen hps hev
  rw [q2, Res.ok.injEq] at ho'
  subst ho'
  have hn : n = cs.sum := by
    have : sumTurns (env.turns l.winding) (l.props.take (env.parallels l.winding)) = .ok cs.sum := by
      rw [hps]; exact sumTurns_take hT hlen
    rw [q1, Res.ok.injEq] at this
    exact this
  have hcount := count_counts hT hlen hps
  have hl' : (layerTurns k ts).length = l.count env := by
    rw [hcount, ← hol, ← q3, List.length_map]
  refine ⟨hl', ?_⟩
  obtain ⟨b1, b2, b3⟩ := bundle_counts hT hb hlen hps hev
  rw [← hcount] at b3
  rw [← hcount] at hn
  subst hn
  obtain ⟨d, hd1, hd2, hd3⟩ := used_rows l b1 b2 b3 top
  refine ⟨risesWith l.orientation top, d, hd1, hd2, fun hreal => ?_, fun m t ht => ?_⟩
  · rw [q5 hreal]
    unfold risesWith fromBelow
    simp only [Nat.zero_add]
  · obtain ⟨e1, e2, e3⟩ := q4 m t ht
    have hm : m < l.count env := by
      rw [← hl']
      exact (List.getElem?_eq_some_iff.mp ht).1
    obtain ⟨f1, f2⟩ := hd3 m t.centre hm e3
    refine ⟨e1, e2, ?_, f1⟩
    rw [f2]
    unfold along
    cases l.orientation with
    | overlapping => exact roundFloat_near _ 9
    | contiguous =>
      simp only []
      rw [← neg_sub_neg, neg_neg, neg_neg, abs_sub_comm]
      exact roundFloat_near _ 9

/-- C74: neighbouring turns are exactly one turn apart, except between the bundles of a spread layer, where the same
gap is added everywhere. -/
theorem turns_spacing {env : TurnEnv} {ls : List LayerIn} {ts : List Turn} (h : windTurns env ls = .ok ts) {k : Nat}
    {l : LayerIn} (hl : ls[k]? = some l) (hg : GoodLayer env l) (hT : 0 < env.turns l.winding)
    (hb : env.turns l.winding < 10 ^ 9) (hw : 0 ≤ l.turnSize) {m : Nat} {t t' : Turn}
    (ht : (layerTurns k ts)[m]? = some t) (ht' : (layerTurns k ts)[m + 1]? = some t') :
    |t'.row l - t.row l| =
      l.turnSize + if (m + 1) % l.bundle env = 0 then l.gap (l.count env) (l.bundle env) else 0 := by
  obtain ⟨h1, low, d, _, _, _, hall⟩ := turns_placed h hl hg hT hb
  obtain ⟨cs, hlen, hps, hev⟩ := goodLayer_counts hg hT
  obtain ⟨_, b2, b3⟩ := bundle_counts hT hb hlen hps hev
  rw [← count_counts hT hlen hps] at b3
  have hm := (List.getElem?_eq_some_iff.mp ht').1
  rw [h1] at hm
  rw [(hall m t ht).2.2.2, (hall (m + 1) t' ht').2.2.2]
  generalize l.count env = n at *
  generalize l.bundle env = b at *
  have key : ∀ i, l.slot n b (i + 1) - l.slot n b i = l.turnSize + if (i + 1) % b = 0 then l.gap n b else 0 := by
    intro i
    rw [slot_sub]
    have hd : (i + 1) / b = i / b + if (i + 1) % b = 0 then 1 else 0 := by
      rw [Nat.succ_div]
      simp only [Nat.dvd_iff_mod_eq_zero]
    rw [hd]
    push_cast
    split <;> ring
  have hnn : ∀ i, 0 ≤ l.turnSize + if (i + 1) % b = 0 then l.gap n b else 0 := by
    intro i
    have := gap_nonneg l n b
    split <;> linarith
  cases low with
  | true =>
    simp only [if_true]
    rw [add_sub_add_right_eq_sub, key m, abs_of_nonneg (hnn m)]
  | false =>
    simp only [Bool.false_eq_true, if_false]
    have e : n - 1 - m = (n - 1 - (m + 1)) + 1 := by omega
    rw [add_sub_add_right_eq_sub, abs_sub_comm, e, key, abs_of_nonneg (hnn _)]
    have e2 : (n - 1 - (m + 1) + 1) % b = 0 ↔ (m + 1) % b = 0 := by
      have e3 : n - 1 - (m + 1) + 1 = n - (m + 1) := by omega
      rw [e3, ← Nat.dvd_iff_mod_eq_zero, ← Nat.dvd_iff_mod_eq_zero]
      exact ⟨fun hh => (Nat.dvd_sub_iff_right (by omega) b3).mp hh, fun hh => Nat.dvd_sub b3 hh⟩
    simp only [e2]

/-- C74: no two turns of a layer overlap: their centres are at least a turn apart for each step between them. -/
theorem turns_apart {env : TurnEnv} {ls : List LayerIn} {ts : List Turn} (h : windTurns env ls = .ok ts) {k : Nat}
    {l : LayerIn} (hl : ls[k]? = some l) (hg : GoodLayer env l) (hT : 0 < env.turns l.winding)
    (hb : env.turns l.winding < 10 ^ 9) (hw : 0 ≤ l.turnSize) {m m' : Nat} {t t' : Turn} (hmm : m ≤ m')
    (ht : (layerTurns k ts)[m]? = some t) (ht' : (layerTurns k ts)[m']? = some t') :
    ((m' : ℚ) - m) * l.turnSize ≤ |t'.row l - t.row l| := by
  obtain ⟨h1, low, d, _, _, _, hall⟩ := turns_placed h hl hg hT hb
  have hm := (List.getElem?_eq_some_iff.mp ht').1
  rw [h1] at hm
  rw [(hall m t ht).2.2.2, (hall m' t' ht').2.2.2]
  cases low with
  | true =>
    simp only [if_true]
    rw [add_sub_add_right_eq_sub]
    exact le_trans (slot_apart l hmm) (le_abs_self _)
  | false =>
    simp only [Bool.false_eq_true, if_false]
    rw [add_sub_add_right_eq_sub, abs_sub_comm]
    refine le_trans ?_ (le_trans (slot_apart l (i := l.count env - 1 - m') (j := l.count env - 1 - m) (by omega))
      (le_abs_self _))
    have hc : ∀ i, i < l.count env → ((l.count env - 1 - i : ℕ) : ℚ) = (l.count env : ℚ) - 1 - i := by
      intro i hi
      rw [Nat.cast_sub (by omega), Nat.cast_sub (by omega)]
      norm_num
    rw [hc m (by omega), hc m' hm]
    apply le_of_eq
    ring

theorem slot_inside (l : LayerIn) {n b i : Nat} (hb : 0 < b) (hd : b ∣ n) (hi : i < n) (hw : 0 ≤ l.turnSize)
    (hfit : n * l.turnSize ≤ l.length) :
    l.middle - l.length / 2 ≤ l.slot n b i - l.turnSize / 2 ∧ l.slot n b i + l.turnSize / 2 ≤ l.middle + l.length / 2 := by
  obtain ⟨q, rfl⟩ := hd
  have hq : b * q / b = q := Nat.mul_div_cancel_left _ hb
  have hib : i / b + 1 ≤ q := Nat.succ_le_of_lt (Nat.div_lt_of_lt_mul hi)
  have hibq : ((i / b : ℕ) : ℚ) + 1 ≤ q := by exact_mod_cast hib
  have hib0 : (0 : ℚ) ≤ ((i / b : ℕ) : ℚ) := by positivity
  have hin : (i : ℚ) + 1 ≤ ((b * q : ℕ) : ℚ) := by exact_mod_cast hi
  have hg := gap_nonneg l (b * q) b
  -- turns and gaps take at most the layer
  have htot : ((b * q : ℕ) : ℚ) * l.turnSize + ((q : ℚ) - 1) * l.gap (b * q) b ≤ l.length := by
    unfold LayerIn.gap
    rw [hq]
    split
    · rename_i h
      have : (1 : ℚ) < q := by exact_mod_cast h.2.1
      rw [mul_div_cancel₀ _ (by linarith)]
      linarith
    · linarith
  have h1 : ((i : ℚ) + 1) * l.turnSize ≤ ((b * q : ℕ) : ℚ) * l.turnSize := mul_le_mul_of_nonneg_right hin hw
  have h2 : 0 ≤ (i : ℚ) * l.turnSize := mul_nonneg (by positivity) hw
  have h3 : ((i / b : ℕ) : ℚ) * l.gap (b * q) b ≤ ((q : ℚ) - 1) * l.gap (b * q) b :=
    mul_le_mul_of_nonneg_right (by linarith) hg
  have h4 := mul_nonneg hib0 hg
  have hns : l.alignment ≠ .spread → l.gap (b * q) b = 0 := fun hal => by
    unfold LayerIn.gap; rw [if_neg (fun h => hal h.1)]
  unfold LayerIn.slot LayerIn.lowEnd
  rw [hq]
  cases ho : l.orientation <;> cases ha : l.alignment <;> simp only [] <;>
    first
      | (constructor <;> linarith)
      | (rw [hns (by rw [ha]; simp)] at *; constructor <;> linarith)

/-- C74: turns that fit in the length of their layer are placed within it, to 1.5 nm; exactly when spread. -/
theorem turns_inside_layer {env : TurnEnv} {ls : List LayerIn} {ts : List Turn} (h : windTurns env ls = .ok ts) {k : Nat}
    {l : LayerIn} (hl : ls[k]? = some l) (hg : GoodLayer env l) (hT : 0 < env.turns l.winding)
    (hb : env.turns l.winding < 10 ^ 9) (hw : 0 ≤ l.turnSize) (hfit : l.count env * l.turnSize ≤ l.length) :
    ∃ tol : ℚ, tol ≤ 3 / (2 * 10 ^ 9) ∧ (l.alignment = .spread → tol = 0) ∧ ∀ t ∈ layerTurns k ts,
      l.middle - l.length / 2 - tol ≤ t.row l - l.turnSize / 2 ∧ t.row l + l.turnSize / 2 ≤ l.middle + l.length / 2 + tol := by
  obtain ⟨h1, low, d, hd, hd0, _, hall⟩ := turns_placed h hl hg hT hb
  obtain ⟨cs, hlen, hps, hev⟩ := goodLayer_counts hg hT
  obtain ⟨_, b2, b3⟩ := bundle_counts hT hb hlen hps hev
  rw [← count_counts hT hlen hps] at b3
  refine ⟨|d|, hd, fun hs => by rw [hd0 hs, abs_zero], fun t ht => ?_⟩
  obtain ⟨m, hm, rfl⟩ := List.mem_iff_getElem.mp ht
  rw [(hall m _ (List.getElem?_eq_getElem hm)).2.2.2]
  rw [h1] at hm
  have := slot_inside l (i := if low = true then m else l.count env - 1 - m) b2 b3 (by split <;> omega) hw hfit
  have hd1 := neg_abs_le d
  have hd2 := le_abs_self d
  constructor <;> linarith [this.1, this.2]

/-- C74: when turns are spread with space to spare, those at the ends touch the ends of the layer. -/
theorem turns_spread_ends {env : TurnEnv} {ls : List LayerIn} {ts : List Turn} (h : windTurns env ls = .ok ts) {k : Nat}
    {l : LayerIn} (hl : ls[k]? = some l) (hg : GoodLayer env l) (hT : 0 < env.turns l.winding)
    (hb : env.turns l.winding < 10 ^ 9) (hs : l.alignment = .spread) (hfit : l.count env * l.turnSize < l.length)
    (hmany : 1 < l.count env / l.bundle env) :
    (∃ t ∈ layerTurns k ts, t.row l - l.turnSize / 2 = l.middle - l.length / 2) ∧
    ∃ t ∈ layerTurns k ts, t.row l + l.turnSize / 2 = l.middle + l.length / 2 := by
  obtain ⟨h1, low, d, _, hd0, _, hall⟩ := turns_placed h hl hg hT hb
  obtain ⟨cs, hlen, hps, hev⟩ := goodLayer_counts hg hT
  obtain ⟨_, b2, b3⟩ := bundle_counts hT hb hlen hps hev
  rw [← count_counts hT hlen hps] at b3
  obtain ⟨q, hq⟩ := b3
  have hdiv : l.count env / l.bundle env = q := by rw [hq, Nat.mul_div_cancel_left _ b2]
  rw [hdiv] at hmany
  have hq1 : (1 : ℚ) < q := by exact_mod_cast hmany
  have hn : 0 < l.count env := by rw [hq]; exact Nat.mul_pos b2 (by omega)
  have hgap : ((q : ℚ) - 1) * l.gap (l.count env) (l.bundle env) = l.length - l.count env * l.turnSize := by
    unfold LayerIn.gap
    rw [hdiv, if_pos ⟨hs, hmany, hfit⟩, mul_div_cancel₀ _ (by linarith)]
  have hlow : l.lowEnd (l.count env) (l.bundle env) = l.middle - l.length / 2 := by
    unfold LayerIn.lowEnd
    rw [hdiv, hgap]
    cases l.orientation <;> simp only [hs] <;> ring
  have hget : ∀ m, m < l.count env → ∃ t, (layerTurns k ts)[m]? = some t := fun m hm =>
    ⟨_, List.getElem?_eq_getElem (by rw [h1]; exact hm)⟩
  have hslot0 : l.slot (l.count env) (l.bundle env) 0 - l.turnSize / 2 = l.middle - l.length / 2 := by
    unfold LayerIn.slot
    rw [hlow, Nat.zero_div]
    push_cast
    ring
  have hslot1 : l.slot (l.count env) (l.bundle env) (l.count env - 1) + l.turnSize / 2 = l.middle + l.length / 2 := by
    have e : (l.count env - 1) / l.bundle env = q - 1 := by
      obtain ⟨q', rfl⟩ : ∃ q', q = q' + 1 := ⟨q - 1, by omega⟩
      rw [hq, Nat.mul_succ, Nat.add_sub_assoc b2, Nat.mul_add_div b2, Nat.div_eq_of_lt (by omega)]
      rfl
    unfold LayerIn.slot
    rw [hlow, e, Nat.cast_sub (by omega), Nat.cast_sub (by omega), Nat.cast_one, hgap]
    ring
  cases low with
  | true =>
    obtain ⟨t, ht⟩ := hget 0 hn
    obtain ⟨t', ht'⟩ := hget (l.count env - 1) (by omega)
    refine ⟨⟨t, List.mem_of_getElem? ht, ?_⟩, t', List.mem_of_getElem? ht', ?_⟩
    · rw [(hall 0 t ht).2.2.2, hd0 hs, add_zero, if_pos rfl, hslot0]
    · rw [(hall _ t' ht').2.2.2, hd0 hs, add_zero, if_pos rfl, hslot1]
  | false =>
    obtain ⟨t, ht⟩ := hget 0 hn
    obtain ⟨t', ht'⟩ := hget (l.count env - 1) (by omega)
    refine ⟨⟨t', List.mem_of_getElem? ht', ?_⟩, t, List.mem_of_getElem? ht, ?_⟩
    · rw [(hall _ t' ht').2.2.2, hd0 hs, add_zero, if_neg (by simp), Nat.sub_self, hslot0]
    · rw [(hall 0 t ht).2.2.2, hd0 hs, add_zero, if_neg (by simp), Nat.sub_zero, hslot1]

/-- Four turns of one parallel and two of each of two, the latter spread: two bundles at the ends of the layer. -/
example : (windTurns sampleTurns sampleLayers).returns fun ts =>
    (layerTurns 0 ts).map (fun t => t.centre.2) = [-1/2, 1/2] ∧
    (layerTurns 1 ts).map (fun t => t.centre.2) = [-7/2, -5/2, 5/2, 7/2] := by decide +kernel

example : ∀ l ∈ sampleLayers, GoodLayer sampleTurns l := by
  have hc : ∀ (T P n : Nat) (ps : List ℚ) (k : Nat), ps = List.replicate P ((k : ℚ) / T) → k ≤ T →
      (n : ℤ) = ((List.range P).map fun j => share T j ps).sum → Consistent T P ps n := by
    intro T P n ps k hps hk hn
    refine ⟨by rw [hps]; simp, fun p hp => ⟨k, hk, ?_⟩, hn⟩
    rw [hps] at hp
    exact (List.mem_replicate.mp hp).2
  intro l hl
  simp only [sampleLayers, List.mem_cons, List.not_mem_nil, or_false] at hl
  rcases hl with rfl | rfl | rfl
  · exact ⟨2, hc 4 1 2 _ 2 (by norm_num) (by norm_num) (by decide +kernel), by simp⟩
  · exact ⟨4, hc 2 2 4 _ 2 (by norm_num [List.replicate]) (by norm_num) (by decide +kernel), fun _ => ⟨by norm_num, 2, by decide +kernel⟩⟩
  · exact ⟨2, hc 4 1 2 _ 2 (by norm_num) (by norm_num) (by decide +kernel), by simp⟩

/-- C74: in U order, without real winding geometry, each layer of a winding begins at the end where the layer before
it finished. -/
theorem turns_back_and_forth {env : TurnEnv} {ls : List LayerIn} {k k' : Nat} {l l' : LayerIn} (hkk : k < k')
    (hl : ls[k]? = some l) (hsame : l'.winding = l.winding)
    (hnone : ∀ i x, k < i → i < k' → ls[i]? = some x → x.winding ≠ l.winding) (hu : env.uOrder l.sec = true)
    (hu' : env.uOrder l'.sec = true) (ho : l'.orientation = l.orientation) :
    fromBelow env ls k' l' = !fromBelow env ls k l := by
  have hlen : k < ls.length := (List.getElem?_eq_some_iff.mp hl).1
  have htake : ((ls.take k').filter fun x => decide (x.winding = l.winding)).length =
      ((ls.take k).filter fun x => decide (x.winding = l.winding)).length + 1 := by
    have e : ls.take k' = ls.take k ++ (l :: (ls.take k').drop (k + 1)) := by
      have h2 : (ls.take k').take k = ls.take k := by rw [List.take_take, Nat.min_eq_left (by omega)]
      have h1 := (List.take_append_drop k (ls.take k')).symm
      rw [h2] at h1
      rw [h1]
      congr 1
      have hk : k < (ls.take k').length := by rw [List.length_take]; omega
      rw [← h1, List.drop_eq_getElem_cons hk]
      congr 1
      have := (List.getElem?_eq_some_iff.mp hl).2
      rw [List.getElem_take]
      exact this
    rw [e, List.filter_append, List.length_append, List.filter_cons, if_pos (by simp)]
    have hz : ((ls.take k').drop (k + 1)).filter (fun x => decide (x.winding = l.winding)) = [] := by
      rw [List.filter_eq_nil_iff]
      intro x hx
      obtain ⟨i, hi, hxi⟩ := List.mem_iff_getElem.mp hx
      have hi' : ((ls.take k').drop (k + 1))[i]? = some x := by rw [List.getElem?_eq_getElem hi, hxi]
      rw [List.getElem?_drop, List.getElem?_take] at hi'
      split at hi'
      · have := hnone (k + 1 + i) x (by omega) (by omega) hi'
        simpa using this
      · simp at hi'
    rw [hz]
    rfl
  unfold fromBelow
  rw [ho, hsame, htake, hu, hu', Bool.true_and, Bool.true_and]
  have hpar : ∀ a : Nat, decide ((a + 1) % 2 = 1) = !decide (a % 2 = 1) := by
    intro a
    by_cases h : a % 2 = 1
    · simp [h]; omega
    · simp [h]; omega
  rw [hpar]
  cases decide (l.orientation = .overlapping) <;>
    cases decide (((ls.take k).filter fun x => decide (x.winding = l.winding)).length % 2 = 1) <;> rfl

/-- The two layers of the first winding in U order: up, then down. -/
example : (windTurns { sampleTurns with uOrder := fun _ => true } sampleLayers).returns fun ts =>
    (layerTurns 0 ts).map (fun t => t.centre.2) = [-1/2, 1/2] ∧
    (layerTurns 2 ts).map (fun t => t.centre.2) = [1/2, -1/2] := by decide +kernel

end Verif.Winding
