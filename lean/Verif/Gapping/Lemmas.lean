import Verif.Gapping.Model
import Mathlib.Data.List.Forall2
import Mathlib.Tactic.Ring
import Mathlib.Tactic.Linarith

/-! # Lemmas about the model of gaps -/

namespace Verif.Gapping

open Verif.Round

set_option linter.unusedSimpArgs false

/-! ## Rounding -/

/-- A multiple of 1e-9. -/
def OnGrid (x : ℚ) : Prop := ∃ n : ℤ, x = (n : ℚ) / 10 ^ 9

theorem onGrid_rd (x : ℚ) : OnGrid (rd x) := ⟨Round.round (x * 10 ^ 9), rfl⟩

theorem rd_onGrid {x : ℚ} (h : OnGrid x) : rd x = x := by
  obtain ⟨n, rfl⟩ := h
  have hp : (0 : ℚ) < 10 ^ 9 := by positivity
  unfold rd roundFloat
  rw [div_mul_cancel₀ _ hp.ne', Round.round_intCast]

theorem OnGrid.add {x y : ℚ} (hx : OnGrid x) (hy : OnGrid y) : OnGrid (x + y) := by
  obtain ⟨n, rfl⟩ := hx
  obtain ⟨m, rfl⟩ := hy
  exact ⟨n + m, by push_cast; ring⟩

theorem OnGrid.sub {x y : ℚ} (hx : OnGrid x) (hy : OnGrid y) : OnGrid (x - y) := by
  obtain ⟨n, rfl⟩ := hx
  obtain ⟨m, rfl⟩ := hy
  exact ⟨n - m, by push_cast; ring⟩

theorem OnGrid.mulNat {x : ℚ} (hx : OnGrid x) (k : Nat) : OnGrid (x * k) := by
  obtain ⟨n, rfl⟩ := hx
  exact ⟨n * k, by push_cast; ring⟩

theorem rd_near (x : ℚ) : |rd x - x| ≤ 1 / (2 * 10 ^ 9) := roundFloat_near x 9

theorem rd_nonneg {x : ℚ} (h : 0 ≤ x) : 0 ≤ rd x := roundFloat_nonneg h 9

theorem rd_mono {x y : ℚ} (h : x ≤ y) : rd x ≤ rd y := roundFloat_mono h 9

/-! ## Steps -/

theorem bind_ok {α β : Type} {s : Step α} {f : α → Step β} {b : β} :
    s.bind f = .ok b ↔ ∃ a, s = .ok a ∧ f a = .ok b := by
  cases s <;> simp [Step.bind]

theorem each_ok {α β : Type} {f : α → Step β} {l : List α} {out : List β} :
    Step.each f l = .ok out ↔ List.Forall₂ (fun a b => f a = .ok b) l out := by
  induction l generalizing out with
  | nil => simp [Step.each, eq_comm]
  | cons a rest ih =>
    simp only [Step.each, bind_ok, Step.ok.injEq]
    constructor
    · rintro ⟨b, hb, bs, hbs, rfl⟩
      exact List.Forall₂.cons hb (ih.mp hbs)
    · intro h
      cases h with
      | cons hb hbs => exact ⟨_, hb, _, ih.mpr hbs, rfl⟩

/-- The gap `layGap` makes. -/
def laid (w : Option ℚ) (col : Column) (kind : Kind) (length : ℚ) (coords : ℚ × ℚ × ℚ) (normal : ℚ) : Gap :=
  { kind := kind, length := length, coords := some coords, shape := some col.shape, normal := some normal,
    parallel := w, area := some col.area, dims := some (col.width, col.depth) }

theorem layGap_ok {c : Core} {col : Column} {kind : Kind} {len : ℚ} {p : ℚ × ℚ × ℚ} {d : ℚ} {g : Gap} :
    layGap c col kind len p d = .ok g ↔
      0 ≤ d ∧ ∃ w, c.windows.head? = some w ∧ g = laid w col kind len p d := by
  unfold layGap
  by_cases h : d < 0
  · simp [h]
  · rw [if_neg h]
    cases hw : c.windows with
    | nil => simp
    | cons w ws =>
      simp only [List.head?_cons, Option.some.injEq, Step.ok.injEq, not_lt.mp h, true_and]
      constructor
      · rintro rfl; exact ⟨w, rfl, rfl⟩
      · rintro ⟨w', rfl, rfl⟩; rfl

theorem layGap_succeeds {c : Core} {col : Column} {kind : Kind} {len : ℚ} {p : ℚ × ℚ × ℚ} {d : ℚ} {w : Option ℚ}
    (hw : c.windows.head? = some w) (hd : 0 ≤ d) :
    layGap c col kind len p d = .ok (laid w col kind len p d) := layGap_ok.mpr ⟨hd, w, hw, rfl⟩

/-! ## Down the column -/

/-- The distance of gap `i` of `total`. -/
def distAt (total : Nat) (chunk d : ℚ) (i : Nat) : ℚ := d + chunk * ((min i (total - 1 - i) : Nat) : ℚ)

theorem distAt_onGrid {total : Nat} {chunk d : ℚ} (hd : OnGrid d) (hc : OnGrid chunk) (i : Nat) :
    OnGrid (distAt total chunk d i) := hd.add (hc.mulNat _)

theorem distAt_next {total : Nat} {chunk d : ℚ} (hd : OnGrid d) (hc : OnGrid chunk) {i : Nat} (hi : i + 1 < total) :
    (if 2 * (i + 1) < total then rd (distAt total chunk d i + chunk)
      else if total < 2 * (i + 1) then rd (distAt total chunk d i - chunk)
      else distAt total chunk d i) = distAt total chunk d (i + 1) := by
  have hg := distAt_onGrid (total := total) hd hc i
  by_cases h1 : 2 * (i + 1) < total
  · rw [if_pos h1, rd_onGrid (hg.add hc)]
    have e1 : min i (total - 1 - i) = i := by omega
    have e2 : min (i + 1) (total - 1 - (i + 1)) = i + 1 := by omega
    unfold distAt; rw [e1, e2]; push_cast; ring
  · rw [if_neg h1]
    by_cases h2 : total < 2 * (i + 1)
    · rw [if_pos h2, rd_onGrid (hg.sub hc)]
      have e1 : min i (total - 1 - i) = total - 1 - (i + 1) + 1 := by omega
      have e2 : min (i + 1) (total - 1 - (i + 1)) = total - 1 - (i + 1) := by omega
      unfold distAt; rw [e1, e2]; push_cast; ring
    · rw [if_neg h2]
      have e1 : min i (total - 1 - i) = i := by omega
      have e2 : min (i + 1) (total - 1 - (i + 1)) = i := by omega
      unfold distAt; rw [e1, e2]

/-- The gaps of the loop down the column, without the loop. -/
def downList (w : Option ℚ) (col : Column) (total : Nat) (chunk rise o d : ℚ) (i : Nat) (gs : List Gap) : List Gap :=
  gs.mapIdx fun j g =>
    laid w col g.kind g.length (col.x, col.y + (o + ((i + j : Nat) : ℚ) * rise), col.z) (distAt total chunk d (i + j))

theorem downColumn_ok {c : Core} {col : Column} {total : Nat} {chunk rise o d : ℚ} (hd : OnGrid d) (hc : OnGrid chunk) :
    ∀ (gs : List Gap) (i : Nat) (out : List Gap), i + gs.length = total →
      downColumn c col total chunk rise i (o + (i : ℚ) * rise) (distAt total chunk d i) gs = .ok out →
      (∀ j, j < gs.length → 0 ≤ distAt total chunk d (i + j)) ∧
        (gs ≠ [] → c.windows ≠ []) ∧
        ∀ w, c.windows.head? = some w → out = downList w col total chunk rise o d i gs := by
  intro gs
  induction gs with
  | nil =>
    intro i out _ h
    simp only [downColumn, Step.ok.injEq] at h
    subst h
    exact ⟨by simp, by simp, by intro w _; simp [downList]⟩
  | cons g rest ih =>
    intro i out hi h
    simp only [downColumn, bind_ok, Step.ok.injEq, layGap_ok] at h
    obtain ⟨g', ⟨h0, w', hw', rfl⟩, more, hmore, rfl⟩ := h
    have hmore' : (∀ j, j < rest.length → 0 ≤ distAt total chunk d (i + 1 + j)) ∧
        (rest ≠ [] → c.windows ≠ []) ∧
        ∀ w, c.windows.head? = some w → more = downList w col total chunk rise o d (i + 1) rest := by
      by_cases hr : rest = []
      · subst hr
        simp only [downColumn, Step.ok.injEq] at hmore
        subst hmore
        exact ⟨by simp, by simp, by intro w _; simp [downList]⟩
      · have hlen : i + 1 < total := by
          have : 0 < rest.length := List.length_pos_iff.mpr hr
          simp only [List.length_cons] at hi
          omega
        rw [distAt_next hd hc hlen] at hmore
        have e : o + (i : ℚ) * rise + rise = o + ((i + 1 : Nat) : ℚ) * rise := by push_cast; ring
        rw [e] at hmore
        exact ih (i + 1) more (by simp only [List.length_cons] at hi; omega) hmore
    obtain ⟨hp, _, hl⟩ := hmore'
    refine ⟨?_, ?_, ?_⟩
    · intro j hj
      cases j with
      | zero => simpa using h0
      | succ j =>
        have := hp j (by simpa using hj)
        have e : i + 1 + j = i + (j + 1) := by omega
        rwa [e] at this
    · intro _ hne
      rw [hne] at hw'
      simp at hw'
    · intro w hw
      rw [hl w hw]
      have hww : w' = w := by rw [hw'] at hw; exact Option.some.inj hw
      subst hww
      simp only [downList, List.mapIdx_cons, Nat.add_zero]
      congr 1
      congr 1
      funext j g
      have e : i + 1 + j = i + (j + 1) := by omega
      rw [e]

theorem downColumn_succeeds {c : Core} {col : Column} {total : Nat} {chunk rise o d : ℚ} {w : Option ℚ}
    (hd : OnGrid d) (hc : OnGrid chunk) (h0 : 0 ≤ d) (hch : 0 ≤ chunk) (hw : c.windows.head? = some w) :
    ∀ (gs : List Gap) (i : Nat), i + gs.length = total →
      downColumn c col total chunk rise i (o + (i : ℚ) * rise) (distAt total chunk d i) gs =
        .ok (downList w col total chunk rise o d i gs) := by
  intro gs
  induction gs with
  | nil => intro i _; simp [downColumn, downList]
  | cons g rest ih =>
    intro i hi
    have hpos : 0 ≤ distAt total chunk d i := add_nonneg h0 (mul_nonneg hch (Nat.cast_nonneg _))
    simp only [downColumn]
    rw [layGap_succeeds hw hpos]
    simp only [Step.bind]
    by_cases hr : rest = []
    · subst hr; simp [downColumn, downList, Step.bind]
    · have hlen : i + 1 < total := by
        have : 0 < rest.length := List.length_pos_iff.mpr hr
        simp only [List.length_cons] at hi
        omega
      rw [distAt_next hd hc hlen]
      have e : o + (i : ℚ) * rise + rise = o + ((i + 1 : Nat) : ℚ) * rise := by push_cast; ring
      rw [e, ih (i + 1) (by simp only [List.length_cons] at hi; omega)]
      simp only [downList, List.mapIdx_cons, Nat.add_zero]
      congr 2
      congr 1
      funext j g
      have e : i + 1 + j = i + (j + 1) := by omega
      rw [e]

theorem downList_length (w : Option ℚ) (col : Column) (total : Nat) (chunk rise o d : ℚ) (i : Nat) (gs : List Gap) :
    (downList w col total chunk rise o d i gs).length = gs.length := by simp [downList]

theorem downList_get {w : Option ℚ} {col : Column} {total : Nat} {chunk rise o d : ℚ} {gs : List Gap} {j : Nat} {g : Gap}
    (hg : gs[j]? = some g) :
    (downList w col total chunk rise o d 0 gs)[j]? = some
      (laid w col g.kind g.length (col.x, col.y + (o + (j : ℚ) * rise), col.z) (distAt total chunk d j)) := by
  simp [downList, hg]

/-! ## Columns -/

theorem splitColumns_mem {c : Core} {wind : Column} {returns : List Column} (h : splitColumns c = some (wind, returns)) :
    wind ∈ c.columns ∧ ∀ col ∈ returns, col ∈ c.columns ∧ col.place = .lateral := by
  have hsub : ∀ p col, col ∈ columnsOf p c → col ∈ c.columns ∧ col.place = p := by
    intro p col hc
    simp only [columnsOf, List.mem_filter, decide_eq_true_iff] at hc
    exact hc
  unfold splitColumns at h
  cases hc : columnsOf .central c with
  | nil =>
    cases hl : columnsOf .lateral c with
    | nil => simp [hc, hl] at h
    | cons f os =>
      simp only [hc, hl, Option.some.injEq, Prod.mk.injEq] at h
      obtain ⟨rfl, rfl⟩ := h
      exact ⟨(hsub .lateral f (by simp [hl])).1, fun col hm => hsub .lateral col (by simp [hl, hm])⟩
  | cons f os =>
    simp only [hc, Option.some.injEq, Prod.mk.injEq] at h
    obtain ⟨rfl, rfl⟩ := h
    exact ⟨(hsub .central f (by simp [hc])).1, fun col hm => hsub .lateral col hm⟩

theorem inMiddle_ok {c : Core} {col : Column} {kind : Kind} {len : ℚ} {g : Gap} :
    inMiddle c col kind len = .ok g ↔ len ≤ col.height ∧ ∃ w, c.windows.head? = some w ∧
      g = laid w col kind len (col.x, col.y, col.z) (col.height / 2 - len / 2) := by
  unfold inMiddle
  rw [layGap_ok]
  constructor
  · rintro ⟨h, r⟩; exact ⟨by linarith, r⟩
  · rintro ⟨h, r⟩; exact ⟨by linarith, r⟩

theorem each_get {α β : Type} {f : α → Step β} {l : List α} {out : List β} (h : Step.each f l = .ok out) :
    out.length = l.length ∧ (∀ (i : Nat) (a : α), l[i]? = some a → ∃ b, out[i]? = some b ∧ f a = .ok b) ∧
      ∀ b ∈ out, ∃ a ∈ l, f a = .ok b := by
  rw [each_ok] at h
  induction h with
  | nil => simp
  | cons hab _ ih =>
    obtain ⟨h1, h2, h3⟩ := ih
    refine ⟨by simp [h1], ?_, ?_⟩
    · intro i x hx
      cases i with
      | zero =>
        simp only [List.getElem?_cons_zero, Option.some.injEq] at hx
        subst hx
        exact ⟨_, by simp, hab⟩
      | succ i =>
        simp only [List.getElem?_cons_succ] at hx ⊢
        exact h2 i x hx
    · intro x hx
      rcases List.mem_cons.mp hx with rfl | hx
      · exact ⟨_, List.mem_cons_self, hab⟩
      · obtain ⟨a', ha', e⟩ := h3 x hx
        exact ⟨a', List.mem_cons_of_mem _ ha', e⟩

/-- The chunk, the height and the distance the loop down the column starts with. -/
def startOf (wind : Column) (nr : List Gap) (len : ℚ) : ℚ × ℚ × ℚ :=
  if nr.length = 1 then
    (0, if len < wind.height then rd (len / 2) else 0, rd (wind.height / 2 - len / 2))
  else
    (rd (wind.height / ((nr.length : ℚ) + 1)),
      rd (-rd (wind.height / ((nr.length : ℚ) + 1)) * ((nr.length : ℚ) - 1) / 2),
      rd (rd (wind.height / ((nr.length : ℚ) + 1)) - len / 2))

theorem startOf_onGrid (wind : Column) (nr : List Gap) (len : ℚ) :
    OnGrid (startOf wind nr len).1 ∧ OnGrid (startOf wind nr len).2.2 := by
  unfold startOf
  split
  · exact ⟨⟨0, by simp⟩, onGrid_rd _⟩
  · exact ⟨onGrid_rd _, onGrid_rd _⟩

/-- Gaps laid in the other columns. -/
def inReturns (c : Core) (returns : List Column) (residuals : List Gap) : Step (List Gap) :=
  if residuals.length < returns.length then
    Step.each (fun col => inMiddle c col .residual residualLength) returns
  else
    Step.each (fun p : Column × Gap => inMiddle c p.1 p.2.kind p.2.length) (returns.zip residuals)

theorem overColumns_eq (c : Core) (nr residuals : List Gap) :
    overColumns c nr residuals =
      match splitColumns c, nr with
      | none, _ => .ub
      | some _, [] => .ub
      | some (wind, returns), g :: rest =>
        (downColumn c wind (rest.length + 1) (startOf wind (g :: rest) g.length).1
          (rd (wind.height / (((rest.length + 1 : Nat) : ℚ) + 1))) 0
          (startOf wind (g :: rest) g.length).2.1 (startOf wind (g :: rest) g.length).2.2 (g :: rest)).bind fun down =>
          (inReturns c returns residuals).bind fun others => .ok (down ++ others) := by
  unfold overColumns
  cases splitColumns c with
  | none => rfl
  | some p =>
    cases nr with
    | nil => simp [Step.bind]
    | cons g rest =>
      simp only [List.map_cons, List.head?_cons, List.length_cons, startOf, inReturns]
      by_cases h : rest.length + 1 = 1
      · rw [if_pos h, if_pos h]
      · rw [if_neg h, if_neg h]

theorem overColumns_ok {c : Core} {nr residuals out : List Gap} (h : overColumns c nr residuals = .ok out) :
    ∃ (wind : Column) (returns : List Column) (g : Gap) (w : Option ℚ) (others : List Gap),
      splitColumns c = some (wind, returns) ∧ nr.head? = some g ∧ c.windows.head? = some w ∧
      (∀ j, j < nr.length → 0 ≤ distAt nr.length (startOf wind nr g.length).1 (startOf wind nr g.length).2.2 j) ∧
      inReturns c returns residuals = .ok others ∧
      out = downList w wind nr.length (startOf wind nr g.length).1 (rd (wind.height / ((nr.length : ℚ) + 1)))
        (startOf wind nr g.length).2.1 (startOf wind nr g.length).2.2 0 nr ++ others := by
  rw [overColumns_eq] at h
  cases hs : splitColumns c with
  | none => simp [hs] at h
  | some p =>
    obtain ⟨wind, returns⟩ := p
    cases nr with
    | nil => simp [hs] at h
    | cons g rest =>
      simp only [hs, bind_ok, Step.ok.injEq] at h
      obtain ⟨down, hdown, others, hothers, rfl⟩ := h
      obtain ⟨hg1, hg2⟩ := startOf_onGrid wind (g :: rest) g.length
      have e1 : (startOf wind (g :: rest) g.length).2.1 =
          (startOf wind (g :: rest) g.length).2.1 + ((0 : Nat) : ℚ) * rd (wind.height / (((rest.length + 1 : Nat) : ℚ) + 1)) := by
        simp
      have e2 : (startOf wind (g :: rest) g.length).2.2 =
          distAt (rest.length + 1) (startOf wind (g :: rest) g.length).1 (startOf wind (g :: rest) g.length).2.2 0 := by
        simp [distAt]
      rw [e1] at hdown
      conv at hdown => lhs; arg 8; rw [e2]
      obtain ⟨h1, h2, h3⟩ := downColumn_ok hg2 hg1 (g :: rest) 0 down (by simp) hdown
      obtain ⟨w, hw⟩ : ∃ w, c.windows.head? = some w := by
        cases hc : c.windows with
        | nil => exact absurd hc (h2 (by simp))
        | cons w ws => exact ⟨w, rfl⟩
      refine ⟨wind, returns, g, w, others, rfl, rfl, hw, ?_, hothers, ?_⟩
      · intro j hj
        have := h1 j hj
        rwa [Nat.zero_add] at this
      · rw [h3 w hw]
        simp

theorem inReturns_ok {c : Core} {returns : List Column} {residuals others : List Gap}
    (h : inReturns c returns residuals = .ok others) :
    others.length = returns.length ∧ ∀ (i : Nat) (col : Column), returns[i]? = some col → ∃ g, others[i]? = some g ∧
      ∃ (k : Kind) (len : ℚ), inMiddle c col k len = .ok g ∧
        ((residuals.length < returns.length ∧ k = .residual ∧ len = residualLength) ∨
         (returns.length ≤ residuals.length ∧ ∃ r, residuals[i]? = some r ∧ k = r.kind ∧ len = r.length)) := by
  unfold inReturns at h
  by_cases hl : residuals.length < returns.length
  · rw [if_pos hl] at h
    obtain ⟨h1, h2, _⟩ := each_get h
    refine ⟨h1, ?_⟩
    intro i col hc
    obtain ⟨g, hg, e⟩ := h2 i col hc
    exact ⟨g, hg, _, _, e, Or.inl ⟨hl, rfl, rfl⟩⟩
  · rw [if_neg hl] at h
    obtain ⟨h1, h2, _⟩ := each_get h
    have hz : (returns.zip residuals).length = returns.length := by simp; omega
    refine ⟨by rw [h1, hz], ?_⟩
    intro i col hc
    have hi : i < returns.length := (List.getElem?_eq_some_iff.mp hc).1
    obtain ⟨r, hr⟩ : ∃ r, residuals[i]? = some r := ⟨residuals[i], by simp⟩
    have hzi : (returns.zip residuals)[i]? = some (col, r) := by
      rw [List.getElem?_zip_eq_some]; exact ⟨hc, hr⟩
    obtain ⟨g, hg, e⟩ := h2 i (col, r) hzi
    exact ⟨g, hg, _, _, e, Or.inr ⟨by omega, r, hr, rfl, rfl⟩⟩

end Verif.Gapping
