import Verif.Text.Lemmas

/-! # Properties C18, C19, C20: NDJSON reading, micro sign, splitting -/

namespace Verif.Text

variable {α : Type} [DecidableEq α]

/-! ## C18: NDJSON -/

/-- Specification: the segments of a text between newlines. -/
def segments (nl : α) : List α → List (List α)
  | [] => [[]]
  | c :: s => if c = nl then [] :: segments nl s
              else match segments nl s with
                | [] => [[c]]
                | l :: ls => (c :: l) :: ls

/-- Specification: hand the lines to the consumer in order, stopping at the first failure. -/
def feed {σ : Type} (consume : σ → List α → σ × Bool) (st : σ) : List (List α) → σ × Bool
  | [] => (st, true)
  | l :: ls => if (consume st l).2 then feed consume (consume st l).1 ls else consume st l

theorem segments_noNl (nl : α) (a : List α) (h : nl ∉ a) : segments nl a = [a] := by
  induction a with
  | nil => rfl
  | cons c a ih =>
    simp at h
    have hc : ¬ c = nl := fun e => h.1 e.symm
    simp [segments, ih h.2, hc]

theorem segments_append (nl : α) (a b : List α) (h : nl ∉ a) :
    segments nl (a ++ nl :: b) = a :: segments nl b := by
  induction a with
  | nil => simp [segments]
  | cons c a ih =>
    simp at h
    have hc : ¬ c = nl := fun e => h.1 e.symm
    simp [segments, ih h.2, hc]

/-- Specification: a line without its last character when that is a carriage return. -/
def dropCr (cr : α) : List α → List α
  | [] => []
  | [c] => if c = cr then [] else [c]
  | c :: d :: l => c :: dropCr cr (d :: l)

theorem stripCr_eq (cr : α) (l : List α) : stripCr cr l = dropCr cr l := by
  induction l with
  | nil => simp [stripCr, dropCr]
  | cons c l ih =>
    cases l with
    | nil => simp [stripCr, dropCr]
    | cons d l =>
      rw [dropCr, ← ih]
      simp only [stripCr, List.getLast?_cons_cons, List.dropLast_cons_cons]
      split <;> rfl

/-- The lines that reach the consumer: on Windows builds one trailing carriage return is dropped, and empty
lines are skipped. -/
def content (win : Bool) (nl cr : α) (db : List α) : List (List α) :=
  ((segments nl db).map (fun l => if win then dropCr cr l else l)).filter (fun l => !l.isEmpty)

theorem getElem?_pred_of_drop (db a b : List α) (start e : Nat) (h : db.drop start = a ++ b)
    (hl : a.length = e - start) (hs : start < e) : db[e - 1]? = a.getLast? := by
  have h1 : db[e - 1]? = (db.drop start)[e - 1 - start]? := by
    rw [List.getElem?_drop]; congr 1; omega
  rw [h1, h, List.getElem?_append_left (by omega), List.getLast?_eq_getElem?]
  congr 1; omega

/-- The part of one line that the loop hands over. -/
theorem line_eq (win : Bool) (cr : α) (db a b : List α) (start e : Nat) (h : db.drop start = a ++ b)
    (hl : a.length = e - start) (hs : start ≤ e) :
    let lineEnd := if win = true ∧ e > start ∧ db[e - 1]? = some cr then e - 1 else e
    let l := if win then dropCr cr a else a
    (lineEnd > start ↔ l.isEmpty = false) ∧ (db.drop start).take (lineEnd - start) = l := by
  intro lineEnd l
  by_cases hw : win = true ∧ e > start ∧ db[e - 1]? = some cr
  · obtain ⟨h1, h2, h3⟩ := hw
    have hg := getElem?_pred_of_drop db a b start e h hl h2
    have hle : lineEnd = e - 1 := by simp only [lineEnd]; rw [if_pos ⟨h1, h2, h3⟩]
    have hll : l = a.dropLast := by
      simp only [l, h1, if_true, ← stripCr_eq]; rw [stripCr, ← hg, if_pos h3]
    rw [hle, hll]
    constructor
    · rw [Bool.eq_false_iff, ne_eq, List.isEmpty_iff, ← List.length_eq_zero_iff, List.length_dropLast]; omega
    · rw [h, List.dropLast_eq_take, List.take_append_of_le_length (by omega)]
      congr 1; omega
  · have hle : lineEnd = e := by simp only [lineEnd]; rw [if_neg hw]
    have hll : l = a := by
      simp only [l]
      split
      · rename_i hwin
        by_cases h2 : e > start
        · have hg := getElem?_pred_of_drop db a b start e h hl h2
          have : db[e - 1]? ≠ some cr := fun h3 => hw ⟨hwin, h2, h3⟩
          rw [hg] at this
          simp [← stripCr_eq, stripCr, this]
        · have : a = [] := List.eq_nil_of_length_eq_zero (by omega)
          simp [← stripCr_eq, stripCr, this]
      · rfl
    rw [hle, hll]
    constructor
    · rw [Bool.eq_false_iff, ne_eq, List.isEmpty_iff, ← List.length_eq_zero_iff]; omega
    · rw [h, List.take_append_of_le_length (by omega), List.take_of_length_le (by omega)]

theorem ndjsonLoop_unfold {σ : Type} (win : Bool) (nl cr : α) (consume : σ → List α → σ × Bool) (db : List α)
    (start : Nat) (st : σ) :
    ndjsonLoop win nl cr consume db start st =
      if start < db.length then
        let end_ := (findFrom db nl start).getD db.length
        let lineEnd := if win = true ∧ end_ > start ∧ db[end_ - 1]? = some cr then end_ - 1 else end_
        let r := if lineEnd > start then consume st ((db.drop start).take (lineEnd - start)) else (st, true)
        if r.2 = false then r
        else match findFrom db nl start with
          | none => r
          | some p => ndjsonLoop win nl cr consume db (p + 1) r.1
      else (st, true) := by
  rw [ndjsonLoop]
  by_cases hs : start < db.length
  · rw [dif_pos hs, if_pos hs]
    have key : ∀ r : σ × Bool, (if r.2 = false then r
        else match hp : findFrom db nl start with
          | none => r
          | some p =>
            have := findFrom_bounds db nl start p hp
            ndjsonLoop win nl cr consume db (p + 1) r.1) =
        (if r.2 = false then r
        else match findFrom db nl start with
          | none => r
          | some p => ndjsonLoop win nl cr consume db (p + 1) r.1) := by
      intro r
      split
      · rfl
      · split <;> rename_i heq <;> simp [heq]
    exact key _
  · rw [dif_neg hs, if_neg hs]

theorem ndjsonLoop_eq {σ : Type} (win : Bool) (nl cr : α) (consume : σ → List α → σ × Bool) (db : List α)
    (start : Nat) (st : σ) :
    ndjsonLoop win nl cr consume db start st = feed consume st (content win nl cr (db.drop start)) := by
  induction hn : db.length - start using Nat.strongRecOn generalizing start st with
  | _ n ih =>
    rw [ndjsonLoop_unfold]
    by_cases hs : start < db.length
    · rw [if_pos hs]
      cases hf : findFrom db nl start with
      | none =>
        have hno := findFrom_none db nl start hf
        have hle := line_eq win cr db (db.drop start) [] start db.length (by simp) (by simp) (by omega)
        simp only [Option.getD_none] at hle ⊢
        obtain ⟨h1, h2⟩ := hle
        rw [h2]
        simp only [content, segments_noNl nl _ hno, List.map_cons, List.map_nil]
        generalize hl : (if win = true then dropCr cr (List.drop start db) else List.drop start db) = l at *
        by_cases he : l.isEmpty = false
        · rw [if_pos (h1.mpr he)]
          simp only [List.filter_cons, he, Bool.not_false, if_true, List.filter_nil, feed]
          split
          · rename_i h; simp [h]
          · rename_i h
            simp only [Bool.not_eq_false] at h
            simp only [h, if_true]
            exact Prod.ext rfl h
        · rw [if_neg (fun h => he (h1.mp h))]
          simp only [Bool.not_eq_false] at he
          simp [List.filter_cons, he, feed]
      | some p =>
        obtain ⟨a, b, e1, e2, e3, e4⟩ := findFrom_some db nl start p hf
        have hb := findFrom_bounds db nl start p hf
        have hle := line_eq win cr db a (nl :: b) start p e1 e3 (by omega)
        simp only [Option.getD_some] at hle ⊢
        obtain ⟨h1, h2⟩ := hle
        rw [h2]
        have hrec : ∀ s', ndjsonLoop win nl cr consume db (p + 1) s'
            = feed consume s' (content win nl cr b) := by
          intro s'
          rw [ih (db.length - (p + 1)) (by omega) (p + 1) s' rfl, e4]
        have hcont : content win nl cr (db.drop start) =
            [if win then dropCr cr a else a].filter (fun l => !l.isEmpty) ++ content win nl cr b := by
          rw [e1]
          simp only [content, segments_append nl a b e2, List.map_cons]
          rw [← List.singleton_append, List.filter_append]
        rw [hcont, hrec]
        generalize hl : (if win = true then dropCr cr a else a) = l at *
        by_cases he : l.isEmpty = false
        · rw [if_pos (h1.mpr he)]
          simp only [List.filter_cons, he, Bool.not_false, if_true, List.filter_nil, List.singleton_append,
            feed]
          split
          · rename_i h; simp [h]
          · rename_i h
            simp only [Bool.not_eq_false] at h
            simp [h]
        · rw [if_neg (fun h => he (h1.mp h))]
          simp only [Bool.not_eq_false] at he
          simp [List.filter_cons, he]
    · rw [if_neg hs, List.drop_of_length_le (by omega)]
      cases win <;> simp [content, segments, feed, dropCr]

/-- **C18**: for every text and every consumer, `parse_ndjson` hands exactly the non-empty lines to the
consumer, once each and in order, up to the first one it fails on. -/
theorem ndjson_feeds_lines {σ : Type} (win : Bool) (nl cr : α) (consume : σ → List α → σ × Bool)
    (db : List α) (st : σ) :
    parseNdjson win nl cr consume db st = feed consume st (content win nl cr db) := by
  rw [parseNdjson, ndjsonLoop_eq]; simp

/-- A consumer that records what it is given. -/
def record : List (List α) → List α → List (List α) × Bool := fun acc l => (acc ++ [l], true)

theorem feed_record (ls : List (List α)) : ∀ acc, feed record acc ls = (acc ++ ls, true) := by
  induction ls with
  | nil => intro acc; simp [feed]
  | cons l ls ih => intro acc; simp [feed, record] at ih ⊢; rw [ih]; simp

theorem segments_lines (nl : α) (ls : List (List α)) (h : ∀ l ∈ ls, nl ∉ l) (last : List α) (hl : nl ∉ last) :
    segments nl (ls.flatMap (fun l => l ++ [nl]) ++ last) = ls ++ [last] := by
  induction ls with
  | nil => simp [segments_noNl nl last hl]
  | cons l ls ih =>
    simp only [List.flatMap_cons, List.append_assoc, List.cons_append, List.nil_append]
    rw [segments_append nl _ _ (h l (by simp))]
    rw [ih (fun x hx => h x (by simp [hx]))]

/-- **C18** (round trip): a file written as one line per entry, with or without a newline after the last one,
is read back as exactly these entries (builds other than Windows). -/
theorem ndjson_round_trip (nl cr : α) (ls : List (List α)) (last : List α)
    (h : ∀ l ∈ ls, nl ∉ l ∧ l ≠ []) (hl : nl ∉ last) :
    (parseNdjson false nl cr record (ls.flatMap (fun l => l ++ [nl]) ++ last) []).1 =
      ls ++ (if last = [] then [] else [last]) := by
  rw [ndjson_feeds_lines, feed_record]
  simp only [content, segments_lines nl ls (fun l hm => (h l hm).1) last hl, List.nil_append,
    Bool.false_eq_true, if_false, List.map_id', List.filter_append]
  have : ls.filter (fun l => !l.isEmpty) = ls := by
    rw [List.filter_eq_self]
    intro l hm
    have := (h l hm).2
    cases l <;> simp_all
  rw [this]
  cases last <;> simp

/-- **C18** (Windows builds): a file with CRLF line ends gives the lines without the carriage return. -/
theorem ndjson_round_trip_crlf (nl cr : α) (hne : nl ≠ cr) (ls : List (List α))
    (h : ∀ l ∈ ls, nl ∉ l ∧ l ≠ []) :
    (parseNdjson true nl cr record (ls.flatMap (fun l => (l ++ [cr]) ++ [nl])) []).1 = ls := by
  have hs := segments_lines nl (ls.map (fun l => l ++ [cr])) (by
    intro l hm
    simp only [List.mem_map] at hm
    obtain ⟨l', hm', rfl⟩ := hm
    simp [(h l' hm').1, hne]) [] (by simp)
  rw [ndjson_feeds_lines, feed_record]
  simp only [List.flatMap_map, List.append_nil] at hs
  simp only [content, hs, List.nil_append, if_true, List.map_append, List.map_map, List.filter_append]
  have h1 : (ls.map ((fun l => dropCr cr l) ∘ fun l => l ++ [cr])) = ls := by
    conv => rhs; rw [← List.map_id ls]
    apply List.map_congr_left
    intro l _
    simp [← stripCr_eq, stripCr]
  rw [h1]
  have : ls.filter (fun l => !l.isEmpty) = ls := by
    rw [List.filter_eq_self]
    intro l hm
    have := (h l hm).2
    cases l <;> simp_all
  rw [this]
  simp [dropCr]

/-- A concrete case: three lines, an empty one in between, no final newline. -/
example : (parseNdjson false 10 13 record [1, 2, 10, 10, 3, 10, 4] []).1 = [[1, 2], [3], [4]] := by
  rw [ndjson_feeds_lines]; decide

/-- Disagreement: on builds other than Windows, the blank line of a CRLF file is handed to the JSON parser
as a line holding only a carriage return. -/
theorem crlf_blank_line_not_skipped :
    (parseNdjson false 10 13 record [1, 13, 10, 13, 10] []).1 = [[1, 13], [13]] := by
  rw [ndjson_feeds_lines]; decide

/-! ## C19: micro sign -/

/-- Specification: every micro byte is the second byte of the UTF-8 micro sign. -/
def WellFormed (s : List UInt8) : Prop :=
  ∀ i : Nat, s[i]? = some (0xB5 : UInt8) → 0 < i ∧ s[i-1]? = some 0xC2

theorem wellFormed_iff (s : List UInt8) : WellFormed s ↔ Good none s := by
  rw [good_iff]
  constructor
  · intro h i hi
    have := h i hi
    rw [if_neg (by omega)]; exact this.2
  · intro h i hi
    have := h i hi
    by_cases h0 : i = 0
    · simp [h0] at this
    · rw [if_neg h0] at this; exact ⟨by omega, this⟩

/-- **C19**: the normalisation never hits undefined behaviour and gives a well-formed text, obtained by only
inserting lead bytes. -/
theorem micro_spec (s : List UInt8) : ∃ t, normalizeMicroSign s = some t ∧ WellFormed t ∧ s.Sublist t ∧
    t.filter (fun b => b ≠ 0xC2) = s.filter (fun b => b ≠ 0xC2) :=
  ⟨_, normalizeMicroSign_eq s, (wellFormed_iff _).mpr (mark_good s none), mark_sublist s none,
    mark_filter s none⟩

/-- **C19**: a well-formed text is left alone. -/
theorem micro_wellFormed (s : List UInt8) (h : WellFormed s) : normalizeMicroSign s = some s := by
  rw [normalizeMicroSign_eq, mark_of_good s none ((wellFormed_iff s).mp h)]

/-- **C19**: normalising twice equals normalising once. -/
theorem micro_idempotent (s t : List UInt8) (h : normalizeMicroSign s = some t) :
    normalizeMicroSign t = some t := by
  rw [normalizeMicroSign_eq] at h
  cases h
  exact micro_wellFormed _ ((wellFormed_iff _).mpr (mark_good s none))

/-- Specification: a name as a sequence of micro signs (`none`) and other bytes. -/
def utf8 (name : List (Option UInt8)) : List UInt8 :=
  name.flatMap (fun | none => [0xC2, 0xB5] | some b => [b])

/-- Specification: the same name where each micro sign is written in either encoding (`true`: UTF-8). -/
def mixed : List (Option UInt8 × Bool) → List UInt8 :=
  List.flatMap (fun | (none, true) => [0xC2, 0xB5] | (none, false) => [0xB5] | (some b, _) => [b])

theorem mark_mixed (name : List (Option UInt8 × Bool)) : ∀ prev, prev ≠ some (0xC2 : UInt8) →
    (∀ b, some b ∈ name.map Prod.fst → b ≠ 0xC2 ∧ b ≠ 0xB5) →
    mark prev (mixed name) = utf8 (name.map Prod.fst) := by
  induction name with
  | nil => intro p _ _; simp [mixed, utf8, mark]
  | cons x name ih =>
    intro p hp h
    have ih' := fun q hq => ih q hq (fun b hb => h b (by simp at hb ⊢; exact Or.inr hb))
    obtain ⟨o, u⟩ := x
    cases o with
    | none =>
      have h2 := ih' (some 0xB5) (by decide)
      unfold mixed utf8 at h2
      cases u
      · simp only [mixed, utf8, List.flatMap_cons, List.map_cons, List.cons_append, List.nil_append, mark, h2]
        simp [hp]
      · simp only [mixed, utf8, List.flatMap_cons, List.map_cons, List.cons_append, List.nil_append, mark, h2]
        simp
    | some b =>
      have hb := h b (by simp)
      have h2 := ih' (some b) (by simp [hb.1])
      unfold mixed utf8 at h2
      simp only [mixed, utf8, List.flatMap_cons, List.map_cons, List.cons_append, List.nil_append, mark, h2]
      simp [hb.2]

/-- **C19**: a name whose other bytes are neither `0xC2` nor `0xB5` (in particular every ASCII name) is
normalised to its UTF-8 form whatever encoding each micro sign was typed in. -/
theorem micro_encodings_agree (name : List (Option UInt8 × Bool))
    (h : ∀ b, some b ∈ name.map Prod.fst → b ≠ 0xC2 ∧ b ≠ 0xB5) :
    normalizeMicroSign (mixed name) = some (utf8 (name.map Prod.fst)) := by
  rw [normalizeMicroSign_eq, mark_mixed name none (by simp) h]

/-- Concrete case: "Mix 26µ" style names, in both encodings. -/
example : normalizeMicroSign [0x32, 0x36, 0xB5] = some [0x32, 0x36, 0xC2, 0xB5] ∧
    normalizeMicroSign [0x32, 0x36, 0xC2, 0xB5] = some [0x32, 0x36, 0xC2, 0xB5] := by decide

example : ∃ name : List (Option UInt8 × Bool), name.length = 3 ∧
    ∀ b, some b ∈ name.map Prod.fst → b ≠ 0xC2 ∧ b ≠ 0xB5 :=
  ⟨[(some 0x32, true), (none, false), (none, true)], rfl, by simp⟩

/-- Disagreement: a valid UTF-8 character other than the micro sign whose second byte is `0xB5`
(here "õ", `C3 B5`) is broken apart into an ill-formed sequence. -/
theorem micro_breaks_other_utf8 : normalizeMicroSign [0xC3, 0xB5] = some [0xC3, 0xC2, 0xB5] := by decide

/-! ## C20: split -/

/-- Specification: `toks` is the leftmost decomposition of `s` at occurrences of `d`. -/
inductive IsSplit (d : List α) : List α → List (List α) → Prop
  | last (s : List α) : ¬ d <:+: s → IsSplit d s [s]
  | cut (t rest : List α) (toks : List (List α)) : ¬ d <:+: t ++ d.dropLast → IsSplit d rest toks →
      IsSplit d (t ++ d ++ rest) (t :: toks)

theorem splitLoop_ok (d : List α) (hd : d ≠ []) : ∀ (fuel : Nat) (s : List α) (acc : List (List α)),
    s.length < fuel → ∃ toks, splitLoop d fuel s acc = some (acc ++ toks) ∧ IsSplit d s toks := by
  intro fuel
  induction fuel with
  | zero => intro s acc h; omega
  | succ fuel ih =>
    intro s acc h
    unfold splitLoop
    cases hf : findSub d s with
    | none => exact ⟨[s], rfl, .last s (findSub_none d s hf)⟩
    | some p =>
      obtain ⟨h1, h2, h3⟩ := findSub_some d s p hf
      have hlen : 0 < d.length := List.length_pos_iff.mpr hd
      obtain ⟨toks, e1, e2⟩ := ih (s.drop (p + d.length)) (acc ++ [s.take p])
        (by rw [List.length_drop]; omega)
      refine ⟨s.take p :: toks, by simp only [e1, List.append_assoc, List.singleton_append], ?_⟩
      obtain ⟨r, hr⟩ := List.isPrefixOf_iff_prefix.mp h1
      have hs : s = s.take p ++ d ++ s.drop (p + d.length) := by
        conv => lhs; rw [← List.take_append_drop p s, ← hr]
        rw [List.append_assoc]; congr 2
        rw [← List.drop_drop, ← hr]; simp
      have hcut : ¬ d <:+: s.take p ++ d.dropLast := by
        rintro ⟨a, b, hab⟩
        have hl := congrArg List.length hab
        simp only [List.length_append, List.length_take, List.length_dropLast] at hl
        have hlt : a.length < p := by omega
        have hq := h3 a.length hlt
        have hpre : s.take p ++ d.dropLast <+: s := by
          conv => rhs; rw [hs]
          rw [List.append_assoc, List.prefix_append_right_inj]
          exact (List.dropLast_prefix d).trans (List.prefix_append _ _)
        obtain ⟨c, hc⟩ := hpre
        rw [← hab, List.append_assoc, List.append_assoc] at hc
        rw [← hc, List.drop_left] at hq
        rw [List.isPrefixOf_iff_prefix.mpr (List.prefix_append _ _)] at hq
        exact absurd hq (by simp)
      have := IsSplit.cut (d := d) (s.take p) (s.drop (p + d.length)) toks hcut e2
      rw [← hs] at this
      exact this

/-- **C20**: for every text and every non-empty delimiter `split` terminates and returns the leftmost
decomposition. -/
theorem split_isSplit (s d : List α) (hd : d ≠ []) : ∃ toks, split s d = some toks ∧ IsSplit d s toks := by
  obtain ⟨toks, h1, h2⟩ := splitLoop_ok d hd (s.length + 1) s [] (by omega)
  exact ⟨toks, by simpa [split] using h1, h2⟩

/-- Joining tokens with a delimiter. -/
def join (d : List α) : List (List α) → List α
  | [] => []
  | [t] => t
  | t :: u :: ts => t ++ d ++ join d (u :: ts)

theorem isSplit_ne_nil {d s : List α} {toks : List (List α)} (h : IsSplit d s toks) : toks ≠ [] := by
  cases h <;> simp

theorem isSplit_join {d s : List α} {toks : List (List α)} (h : IsSplit d s toks) : join d toks = s := by
  induction h with
  | last s _ => rfl
  | cut t rest toks _ hs ih =>
    cases toks with
    | nil => exact absurd rfl (isSplit_ne_nil hs)
    | cons u ts => simp [join, ih]

theorem isSplit_free {d s : List α} {toks : List (List α)} (h : IsSplit d s toks) :
    ∀ t ∈ toks, ¬ d <:+: t := by
  induction h with
  | last s h => simpa using h
  | cut t rest toks h _ ih =>
    intro u hu
    rcases List.mem_cons.mp hu with rfl | hu
    · exact fun hi => h (hi.trans (List.prefix_append _ _).isInfix)
    · exact ih u hu

/-- **C20**: the tokens do not contain the delimiter and joined by it give the text back. -/
theorem split_round_trip (s d : List α) (hd : d ≠ []) :
    ∃ toks, split s d = some toks ∧ join d toks = s ∧ ∀ t ∈ toks, ¬ d <:+: t := by
  obtain ⟨toks, h1, h2⟩ := split_isSplit s d hd
  exact ⟨toks, h1, isSplit_join h2, isSplit_free h2⟩

/-- **C20**: the specification determines the result, so `split` returns nothing else. -/
theorem isSplit_unique (d : List α) (hd : d ≠ []) {s : List α} {a : List (List α)} (ha : IsSplit d s a) :
    ∀ {b}, IsSplit d s b → a = b := by
  have key : ∀ (t t' rest rest' : List α), t ++ d ++ rest = t' ++ d ++ rest' →
      ¬ d <:+: t' ++ d.dropLast → t'.length ≤ t.length := by
    intro t t' rest rest' he hn
    refine Nat.le_of_not_lt (fun hlt => hn ?_)
    have hp : t ++ d <+: t' ++ d ++ rest' := he ▸ List.prefix_append _ _
    have hp2 : t' ++ d.dropLast <+: t' ++ d ++ rest' := by
      rw [List.append_assoc, List.prefix_append_right_inj]
      exact (List.dropLast_prefix d).trans (List.prefix_append _ _)
    have hlen : 0 < d.length := List.length_pos_iff.mpr hd
    have := List.prefix_of_prefix_length_le hp hp2 (by simp; omega)
    exact (List.suffix_append t d).isInfix.trans this.isInfix
  induction ha with
  | last s h =>
    intro b hb
    cases hb with
    | last _ _ => rfl
    | cut t rest toks h' _ =>
      exact absurd ((List.suffix_append t d).isInfix.trans (List.prefix_append _ _).isInfix) h
  | cut t rest toks h _ ih =>
    intro b hb
    generalize hs : t ++ d ++ rest = s at hb
    cases hb with
    | last _ h' =>
      subst hs
      exact absurd ((List.suffix_append t d).isInfix.trans (List.prefix_append _ _).isInfix) h'
    | cut t' rest' toks' h' hb' =>
      have l1 := key t t' rest rest' hs h'
      have l2 := key t' t rest' rest hs.symm h
      have hl : t.length = t'.length := by omega
      rw [List.append_assoc, List.append_assoc] at hs
      obtain ⟨e1, e2⟩ := List.append_inj hs hl
      have e3 := List.append_cancel_left e2
      subst e1; subst e3
      rw [ih hb']

/-- Disagreement: with an empty delimiter the loop never ends, whatever the number of iterations. -/
theorem split_empty_diverges (s : List α) (fuel : Nat) (acc : List (List α)) :
    splitLoop [] fuel s acc = none := by
  induction fuel generalizing s acc with
  | zero => rfl
  | succ n ih =>
    unfold splitLoop
    have : findSub [] s = some 0 := by cases s <;> simp [findSub]
    simp only [this, ih]

/-- A concrete case with overlapping occurrences of the delimiter. -/
example : split [1, 1, 1, 2, 1, 1] [1, 1] = some [[], [1, 2], []] ∧ ([1, 1] : List Nat) ≠ [] := by decide

end Verif.Text
