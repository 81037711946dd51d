# Formal model of OpenMagnetics/MKF: design

The model is written in Lean 4 (4.33.0, with single Mathlib modules), under `lean/Verif/`.
The C++ code under `/repo/src` was read as text; it was never built or run.

## Layout

Each area of the code has a directory `lean/Verif/<Area>/` with

* `Model.lean` – the model: total, computable functions; every definition cites the file and lines it models;
* `Lemmas.lean` – helper lemmas (no property is stated here);
* `Props.lean` – the independent specification and the property theorems, each followed by an `example`
  showing a concrete non-trivial instance of its hypotheses, and, where the code violates the
  property, the negation with a concrete witness.

## Trusted base

* Lean's kernel. No axiom is added; theorems depend at most on `propext`, `Classical.choice`, `Quot.sound`
  (checked with `#print axioms`).
* The reading of the C++ code: there is no mechanical link between the code and the model.
* Numbers. `double` is modelled by exact rationals (or by an arbitrary linearly ordered field, or reals when
  logarithms/roots occur). Rounding, overflow and signed zero are not modelled. NaN is modelled as an
  explicit extra case where the code tests for it. Every definition concerned says so.
* Containers. `std::map` is modelled by a key-sorted association list or by a function plus key order,
  `std::vector` by `List`, `std::optional` by `Option`.
* Exceptions are an explicit error outcome that carries the state left behind; undefined behaviour
  (out-of-range index, modulo zero, conversion of a negative number to unsigned) is a distinct outcome `ub`.
* Generated MAS schema classes (`MAS.hpp`) are not in the repository; only the getters the modelled
  functions use are represented.

## Seeded faults

`seeded/LOG.jsonl` lists faults put into a scratch copy of the model, one line per attempt. How to read it:

* A fault counts as noticed when a proof no longer goes through. That is weaker than the statement being false under
  the fault: a proof can break although the statement still holds. So the numbers are upper bounds.
* Where only a helper lemma broke, the outcome says whether the statement that depends on it was read again. That was done
  for the first 209 attempts only. Five of their faults turned out to be masked: the proof broke, but everything claimed
  was still true. They are marked "masked survivor", the theorems that were added or restated because of them are named,
  and the rerun follows. The other judgements of those attempts are by reading; they are not refuted by machine.
* For later attempts of this kind, about 300, nobody judged the statement: they are marked "not judged", and some of them
  may be masked survivors. Earlier versions of the log marked them as judged by reading, which was wrong: the script that
  writes the log gave that mark to all.
* Survivors were met by tightening too, and most have a rerun. A few have none: their entry names the theorems that were
  added, or says in a note why no claim is false under the edit.

## Plan per property

| Property | What is modelled | How it is proved |
|---|---|---|
| C01 | `Cache<T>` operations over a key-sorted map | refinement to `Key → Option V`, induction over operation lists |
| C02 | catalogue state, freeze flag, every guarded and unguarded mutator, scope enter/exit | invariant over operations; negation for `evict` and for scope destruction |
| C03 | `Scope` constructor/destructor, nested programs as a tree | induction over programs; negation for non-LIFO move assignment |
| C04 | overlay of maps in `Scope::Scope`, family rebuild | pointwise specification of lookup |
| C05 | `loadFromJson`, `forEachEntry` over a JSON tree | negation of atomicity; partial: kind-wise atomicity, success completeness |
| C06 | `TypeFilterSet`, `filterCoresByConstraints`, `filterWiresByConstraints` | list induction, sublist + membership characterisation |
| C07 | `NumberTurns` state machine with the 1000-step loop | loop invariant; negation after divergence; partial for non-throwing calls |
| C08 | `migrate_pre_1_0` over a JSON inductive type, the full table | structural induction, whole-table check |
| C09, C10 | `check_requirement`, `resolve_dimensional_values` | case analysis over presence patterns |
| C11 | `normalize_scoring` of Utils (list and map forms) | list induction, ordered field algebra |
| C12 | cross-referencer `normalize_scoring` and `compute_normalized_scorings` | the same; negation for the reported scorings |
| C13 | `evaluate_and_cull`, pipeline fold | list induction, filter algebra |
| C14 | batched adviser: batches, concatenation, stable sort, truncation | sortedness and permutation lemmas |
| C15 | filters with per-object scoring memo, widening loop, pruning | loop induction; negation on object reuse |
| C16 | `headroom`, `select_electrical_entry`, evaluation loop | fold induction |
| C17 | the binary search, literally | negation; partial for end points and exact hits |
| C18–C20 | byte/character level functions | list induction, round trip |
| C21, C22 | settings record, setters, reset, guards | invariant over histories |
| C23–C27 | table interpolation, coordinator, DTI search, interface layers, wire requirements | ordered field algebra, induction on tables, negations where the code fails |
| C28 | the enum tables | whole-table check lifted by a lemma |
| C29 | `get_wires` with its memo | negation; partial when the catalogue size changed |
| C30, C31 | lookups and loaders | list induction; negation for families |
| C32 | pattern derivation | divisibility argument |
| C33 | harmonic index selection | list induction |
| C34 | argmin fold | fold invariant |
| C35 | size rounding | arithmetic |
| C36 | logger | list induction |
| C37 | spaced arrays | arithmetic |
| C38 | collision check | case analysis |
| C39 | energy memo next to the cache | negation after evict or load; exact right after precalculation |
| C40 | `settings.reset` and the loaded cores | negation; partial when a flag differs |
| C41 | scope counter over traces | invariant over traces |
| C42 | log and configuration calls as interleaved steps of threads | linearisation by induction over schedules; negation when a configuration call overtakes |
| C43 | `filter_magnetics` of each filter with its weight | from the cull characterisation; negation for the filters that return early |
| C44 | the three attempts of the available-cores power pipeline | preservation of a predicate through stages |
| C45 | gap window and golden-section loop over an ordered field | loop invariant with the golden ratio equation |
| C46, C47 | `reject_winding_killing_gaps`, `fan_out_dummy_into_top_materials` | list algebra |
| C48 | `post_process_and_cut`, the end of the standard-cores pipeline | refinement to filter, first of each shape and take; negation for the concatenation |
| C49 | contributions of the cross-referencer filters | permutation with one contribution function; negation for saturation |
| C50, C51 | the loaders over parsed lines | last entry of a name by induction over files; negations for ignored files, truncated catalogues and refused cores |
| C52 | the adviser entry points that refill catalogues | case analysis |
| C53, C54, C55, C56 | the calculations of the four insulation standards over their tables | an order on inputs (Harsher) and conditions on tables (Sound664, Sound623, Sound615, Sound603); monotonicity of every step under them; the shipped tables are checked against the conditions; negations with witnesses on the shipped tables |
| C57 | creepage distance and clearance of the four standards | case analysis; rounding lemmas |
| C58 | undefined values of the tables as an outcome of their own | total interpolation on tables with two rows or more; exact ends of the shipped tables |
| C59 | the calculations of the four standards at two frequencies | monotonicity of the frequency loops where it holds; negations with witnesses elsewhere |
| C60, C63 | the same calculations | the value of each table, characterised as the first row that reaches the argument, is below the result; a table check against the identity |
| C61, C62 | the same calculations at two classes or altitudes | both runs share the table value; rounding lemmas |
| C64, C65, C66 | `get_parallels_proportions`, the choice of style, `plan_section_group` and the section loop | the splits are shown to be whole numbers of turns and related to a recursion over naturals, whose closed form is proved by induction over sections; the bookkeeping of all windings is an invariant of the loop over entries and groups |
| C67 | the running edge of the section loop | invariant of the loop; the total by telescoping, with the rounding error counted per section |
| C68 | `get_length_proportions` and the section loop of round windows | the same invariant with relative shares; a witness for the exception |
| C69, C70 | `wind_by_rectangular_layers` for one conduction section | the same recursion over naturals as the sections, plus one with the turns of each layer forced; closed forms give that no layer is empty |
| C71 | the number of layers that fit, of turns per layer and the growth of the number of layers for rows of parallels | ceiling division arithmetic: the number of layers chosen is at least turns over capacity |
| C72 | the running centre of the layer loop | invariant of the loop, with the rounding error counted per layer |
| C73 | `wind_by_rectangular_turns` and the three winders one after another | invariant of the loop over layers: per winding and parallel, the next number is the sum of the layers before; composed with C64 and C69 |
| C74 | the places of the turns of a layer, reversed or not | closed form of the place of the n-th turn for each alignment; offsets from rounding are common to the layer |
| C75 | rectangles of sections, layers and turns | sections apart from the running edge of C67, layers from C72, turns from C74; being inside a rectangle carries apartness down with the tolerances added |
| C76 | the sections of each group: pattern, insulation, edge and margins | induction over the entries of a group and over the groups, with the running edge, counts and ordinals as invariant |
| C77 | the caches by name as state, every call as a computation over it | invariant over histories: every cached curve is the one computed from scratch; then every computation gives the same answer from such caches as from empty ones |
| C78 | the filters, the sort, the deduplication, the curves, the reference and the factors | lemmas on sorting and deduplication; the answer is split into reference and factors, which do not depend on each other through the caches |
| C79 | as C78 | bounds carried through curves and factors; concrete witness for the product |
| C80 | the clamped splines of both parts and of the loss factor | the clamp is the identity at points and constant outside; the spline is a parameter that goes through its points |
| C81 | dereferencing an empty optional and building a spline from two points as undefined outcomes | case analysis on the deduplicated points; concrete witnesses |
| C82 | the deal of turns over the pattern of a group, the pattern from ratios rounded half up, and the three steps with what winds as a parameter | induction on turns with the turns left summing to those to deal; the cyclic search finds a winding with turns left within the length of the pattern; the j-th turn of a winding is on parallel j / turns |
| C83 | exceptions carry the coil as it is when they are thrown | case analysis on every way out of each step; concrete witness |
| C84 | the leaders, the one pass that gives indexes, the map | each index is the one of its leader or a new one; under lists that agree the leader is the first of those wound together; concrete witnesses |
| C85 | names of virtual windings kept between windings of the same coil | names of groups are different, so the section finds its group; sections there and back are the same; concrete witness from two windings of a coil |
| C86 | the cache with its keys, one per model, asked by any history of calls | invariant: whatever is kept was computed for a wire of the history with the same key; concrete witnesses |
| C87 | the ohmic stage, with turns, connections and parallels as lists | inverse sums over positive resistances; sums of turns by parallel |
| C88 | the four stages and the combination, over any formulas with any memory | sums by key: every turn is under one name; the stages add to the total what they add to the turns; concrete witness with one lead |
| C89 | reads and writes past the end are outcomes of every stage; pruning and the refusal of the field included | a predicate 'defined, and then' through all stages; after pruning all windings have the same number of harmonics; concrete witnesses |
| C90 | the selection of main harmonics (area Harmonics), merging, sorting and the rebuilt harmonics | invariants of the merge; the sorted list is a permutation without repeated indexes |
| C91 | names as characters; names of entries of a group beside the section winder; names of layers and turns from what the layer and turn winder give | a name is read from its end: digits, a blank, then the rest; counters grow within a group; tags in place of names; concrete witnesses |
| C92 | a coil as its windings, turns and three memories; any history of lookups and changes | the index of a turn is right in any state; for the others an invariant over histories without replacement; concrete witnesses |
| C93 | runs of places of a layer, as the code cuts them | equal to a walk one place at a time, and that to counting beginnings; numbers with their mark are different |
| C94 | `proximityOfTurn`, `splitField` and `isSecond` of the area WindingLosses | every point of the turn goes to one of two lists, which are a permutation of the points of the turn; the values follow by pairing fields and results |
| C95 | `Network.fluxes`, `solve`, `eliminate` and `back` of the area Network | the steps of elimination keep the solutions and leave a triangular matrix, by induction over pivots; a zero pivot gives a vector that the matrix sends to zero, and the energy of the network (summation by parts) leaves only zero; the spec is `Kirchhoff`, on fluxes of columns and not on loops |
| C96 | `inductanceMatrix`, `shortCircuit` and `columnFluxes` of the area Network | reciprocity and energy from the summation by parts (Tellegen), superposition from uniqueness |
| C97 | `buildWith`, `addGaps` and `gappingReluctance` of the area Network | the scaled network has scaled fluxes and a gap in the column of the source acts as a smaller source, both by uniqueness; the disagreement by a core with unlike gaps in its returns |
| C98 | `windingColumns` and `hasOtherPlacement` of the area Network | by cases on where the placement is read, and induction over the windows checked |
| C99 | `distribute`, `layout`, `overColumns` and `spread` of the area Gapping | by cases on the branch, each laying one gap per element; the spec (`On`, `Centred`, `intended`, `windingColumn`) is on columns and lengths only |
| C100 | `downColumn` of the area Gapping | closed form of the loop by induction, on the grid of nanometres where rounding does nothing; bounds on the error of rounding |
| C101 | `process` of the area Gapping | the closest column to a gap on a column is that column; the second pass as a map over gaps; the loss of room as a general theorem and not only a witness |
| C102 | `process`, `drumRing`, `setLength`, `stackGaps` and the `create_*` functions of the area Gapping | by cases, and induction over gaps |
| C103 | `processWindows` and `append` of the area CoreData | by cases on how often windows are appended, induction over columns |
| C104 | `fits` of the area CoreData | the spec is a permutation of the three dimensions; by cases on the eight maxima |
| C105 | `integrate`, `fieldEnergy` and `leakage` of the area Inductance | the energy as a sum of squares of linear forms; polarization; the spec is the energy of the field of given currents |
| C106 | `pairLeakage` and `leakageBetween` | the pair as a quadratic form of two currents; differences with the short circuit as identities in a field |
| C107 | `entry`, `writes`, `readLast`, `mutualInductance`, `selfInductance`, `coupling` | sums of forms that are not negative; leakages within columns as a sum of the form over columns; what is read last of what is written |
| C108 | `invert` and its steps | invariant: both matrices say the same of unknowns and right hand sides; cleared columns; a vector of the kernel when there is no pivot |
| C109 | `buildFrom`, `buildFromLeakage`, `diagonal` | the currents with one winding driven are a column of the inverse; exact error of the diagonal |
| C110 | `solve` (elimination with exchanges of rows) and `solveOnce` of the area Thermal | invariant of elimination: both systems have the same solutions; the spec is heat through connections, not matrices |
| C111 | `solveOnce` | a failed pivot gives a vector near the kernel, and along a path it cannot be large; an island gives a vector of the kernel |
| C112 | `solveOnce` | maximum principle: at a coldest node all neighbours are as cold |
| C113 | `iteration`, `loop`, `solveCircuit` | invariants over iterations; half way to the solution means that the step is the distance to it |
| C114 | `report`, `bulkResistance` | induction over nodes; the witness is a calculation run to its end |
| C115 | `fractions`, `concentricCorePowers`, `toroidalCorePowers`, `turnPowers` | sums in a field, induction over turns |
| C116 | `detect`, `heatsink`, `coldPlate`, `forcedCooling`, `laminar` | case analysis; a speed below any coefficient from a square root |
| C117 | `byComponent`, `perTurn`, `atPoint` | induction over nodes |
| C118 | `radiationCoefficient`, `fromTable`, `materialConductivity` | identities in a field; induction over tables; induction over calls |
| C119 | `average` of the area Waveforms | induction over segments |
| C120 | `add`, `subtract`, `shift` | remainders; the spec is the place every value goes to |
| C121 | `sampled` | induction over the search for the segment; the spec `OnWaveform` is a point on the line between two points. False for waveforms that do not start at zero |
| C122 | `sampled`, `addSignals` | induction over segments and samples on both sides |
| C123 | `sampled`, `addSignals`, `shiftSignal` | the span of sampled times; false, with witnesses |
| C124 | `compress` | induction over points keeping the last kept one; witnesses for tiny slopes; an exponential of any length |
| C125 | `derivative`, `integral` | induction over segments: partial sums telescope |
| C126 | `maxVoltSeconds`, `maxVoltSecondsOfPoint` | induction over intervals; the spec `gathered` is the sum of voltage times duration |
| C127 | `create` | case analysis over labels, arithmetic of duty cycles |
| C128 | `create`, `basicProcessed` | case analysis over labels |
| C129 | `measuredDuty` | induction over segments; the spec `timeAt` is the time spent at a level |
| C130 | `guessLabel`, `sineOrCustom` | case analysis; false in general, with witnesses, two of them for any number of samples |
| C131 | `basicProcessed`, `processed`, `effectiveFrequency`, `rmsOf`, `thdOf` | inequality of Cauchy and Schwarz over lists; weighted means |
| C132 | `scaleTime` | induction over segments |
| C133 | `fft` of the area Fft over any commutative ring, with the bits of the indexes in `BitVec 32` | loops as lists of butterflies on disjoint pairs; induction over stages: every block holds its transform with bits reversed; reversal by masks is reversal of bits, for every index; exchanging is an involution |
| C134 | `inverse` | sums of turning numbers over a period vanish |
| C135 | `harmonics` | C133; the spec `component` is a sum of exponentials |
| C136 | `harmonics` | linearity of sums; index shifts modulo the size |
| C137 | `harmonics` | the identity of Parseval, components come in conjugate pairs |
| C138 | `reconstruct`, `harmonics` | components of cosines; the spec `signal` is a sum of cosines. False for settings that are not powers of two and for negative means |
| C139 | `trimmed`, `harmonicsData` | induction over the search for the largest weight |
| C140 | `processedData`, with `sampled`, `average` and `processed` of the area Waveforms | case analysis; false for numbers of corners that are powers of two |
| C141 | `voltagesPerTurn`, `rmsOfExcitations` | the counter of a parallel is the number of turns of it before (spec `rank`), induction over turns |
| C142 | `effectivePermittivity` | field arithmetic and case analysis |
| C143 | `selfCoreEnergy`, `throughCore`, `windingToCore` | completing the square; lists with sums |
| C144 | `amongTurns`, from `visit`, the skipping of pairs seen in either order | what `visit` keeps is one pair of each two orders, the first |
| C145 | `iterate`, `loop`, `pairCap` | the sums over visited pairs are the sums over all pairs of turns (spec `over`, `overPairs`); the potential of the third node does not depend on the energy, so the second iteration repeats it. The order of windings and windings spread among others fail |
| C146 | `amongWindings`, `turnMaps`, `reportedEnergy`, `reportedDrop` | pairs visited are unique up to order |
| C147 | `sixCap`, `tripole`, `maxwell` | the spec `networkEnergy` has the capacitors at the terminals the comment gives, `piecesEnergy` is the energy cut in pieces; identities of sums |
| C148 | `cas`, `cab`, `oneLayer` | a step multiplies the offset from the value it settles at by a square, so the two ladders stay on both sides of it; false for longer turns |
| C149 | `turnToCore` over the real numbers | term by term; false when nothing is between wire and core |
| C150 | `models`, `choose`, `methodData`, `source` over a material of named variants | the spec `Offers` says which data each model needs; the first of a list by `List.find?`. Variants other than the default one fail |
| C151 | `coefficients`, a pass over the ranges that keeps the lowest start and highest end | induction over the ranges, with the spec `Within` |
| C152 | `steinmetz`, `applyTemperature`, `fluxFromLosses` over the real numbers | rules of real powers |
| C153 | `frequencyLoop`, the search with its counter | an invariant of the loop; false for two ranges with the same exponent |
| C154 | `switching`, `fluxPeak`, `amplitude` | the strongest of a list by induction; false with a bias downwards |
| C155 | `igse`, `nse`, `albach`, `mse`, `cigse`, `barg` over lists of times and values | sums over segments; Jensen's inequality, with the time that goes up and down, for the lower bound |
| C156 | `onePeriod`, the number of points | rounding; false for three or more periods |
| C157 | `biasFactor`, `corrected` | clamping; false for Roshen's model |
| C158 | `semishielded` | field arithmetic, and powers of the ratio of areas; false with iGSE |
| C159 | `micrometals`, `magnetics`, `poco`, `tdg`, `magnetec` and their inverses | the root of each quadratic, and powers; false without quadratic coefficient |
| C160 | `searchFrequency`, `searchFlux` | induction over what is tried |
| C161 | `clean`, `assign`, `refusal` | induction over the chunks of points |
| C162 | `loopOf`, `upper`, `lower`, `delta`, `bhLoop`, `hysteresis` over an ordered field | the parameters are characterised by three equations (`Fits`); the code's discriminant is A²-CE of the quadratic equation of the tips (by ring), its root is shown within the branch; both branches are then cut at the same fields. Small swings fail |
| C163 | `roshenResistivity`, `eddy`, `excess`, `roshenOutput`, `roshenCorrected`, `roshenVolumetric` over the real numbers | the integrals and the lower bound of C155 |
| C164 | `seriesResistance`, `inductanceOf`, `factorLosses` over the real numbers | floor and ceiling; false but for a whole number of turns |
| C165 | `impedance`, `differential`, `leakageTanks`, `qFactor` over the complex numbers | the spec is Kirchhoff's equations of a tank, whose solution is unique; passivity by induction over the tanks |
| C166 | `magnetizingTank`, `reluctance`, `selfResonance` over the real numbers | equations between both functions; the disagreements are exact factors |
| C167 | `permittivityAt`, `attenuation` (series of a rectangle, slab) over the complex numbers | the sort is a permutation; the truncated series has positive weights whose sum is at most 1 (sum of the odd inverse squares), the slab an energy balance |
| C168 | `minimumTurns` over any impedance and resonance | invariant of the search |
| C169 | `axis`, `sweepImpedance`, `sweepCommon`, `sweepDifferential`, `sweepEach`, `sweepFlux` over the real numbers | C37 for the axis; point by point |
| C170 | `conductingArea`, `effectiveArea`, `rectangularArea` over an ordered field | spec of the ring of a circle and the frame of a rectangle; algebra by type of wire |
| C171 | `parallelsNeeded`, `parallelsNeededAll` | the ceiling as the least upper integer, by induction over operating points |
| C172 | `build`, `call` with the maps of the thread as state | invariant of the maps over any history of calls; the sort is stable and keeps the first of each diameter |
| C173 | `bareLitz`, `servedLitz`, `insulatedLitz` over the real numbers | comparison of squares |
| C174 | `encodeLabel`, `decodeLabel` on lists of characters | what stands at both sides of a separator, uniqueness of the split (C20), digits read back |
| C175 | `equivalent` with the lookup given | decision by types; rounding to the nearest |
| C176 | `cutFoil`, `cutPlanar`, `equivalentLayers`, `coatingThickness` | algebra; the floor as the greatest lower integer |
| C177 | `processFamily` for the thirteen families, `processData`, `construct` | a table of the drawing of each family as the specification; case by case with algebra |
| C178 | `quickBobbin` with its loop over windows, `quickByDimensions`, `quickFor` | induction over the windows, with the sign each is mirrored with |
| C179 | `dimensionsFor`, `fillingFactor`, `floored` | order of the two thicknesses; the splines are any functions |
| C180 | `scan`, `sampleOf`, `thinned`, `splineOf`, `loadInterpolators` | induction over sorted samples; any permutation that is sorted may come out of the sort |
| C181 | `windowShape`, `windowDimensions`, `windowArea`, `fits`, `setOrientation`, `sectionsOrientation` | unfolding by the shape of the window; laws of a write and a read |
| C182 | the six faces and `maximumDimensions` | algebra of rings and rectangles |
| C183 | `filter` of Sweep with its loop over turns, caps and budget | invariant of the loop: the best so far is the least of those measured, the state is along the turns from the start |
| C184 | the same over several points, with the state each leaves to the next | invariant for what holds; a bell of losses as the witness of what does not |
| C185 | `saturation`, `satPoint`, `fluxOf`, `isInductor` | what each point adds is a relation; induction over the points |
| C186 | `density`, `densityPoint`, `densityOf` | the same, twice nested |
| C187 | `magnetizingInductance` and `isTransformer` | induction over points with the outputs written |
| C188 | `energyStored` | induction with the running total, and witnesses |
| C189 | `impedance` | induction; the logarithm is a parameter with its properties as hypotheses |
| C190 | `turnsRatios` | induction over both lists |
| C191 | Choke: `filter` with its jump, its re-bumps and its steps | invariants of each loop; the square law by the bound each jump keeps |
| C192 | `get_patterns` with the sides filled, `std::next_permutation`, the cut of toroids and the reverses | permutations of the windings by induction over the orders; the length at which a toroid cuts beyond the end decided by the factorial |
| C193 | `check_pattern_and_repetitions_integrity` | induction over the repetitions: what is merged is what is to be wound |
| C194 | the two nested loops with the variable that the inner one overwrites | equality with the product of the lists when no winding has fewer turns than repetitions, and a witness when one has |
| C195 | the wire of each winding against the requirements of each combination | induction over windings, combinations and tries |
| C196 | the scan, the first crossing, the bisection and the fallback | the crossing is an invariant of the bisection, whose width halves; induction over the scan |
| C197 | the filter with its cache, for a list of cores | invariant: what is remembered under a key is the maximum of every core with it; a witness of two cores with the same key |
| C198 | the loop over operating points with the flux density remembered by material | induction over the operating points; a witness with two of different frequency |
| C199 | The object with its two parts and the remembered dimensions; settings, readings and questions as operations. | Induction over histories; witness of a stale answer. |
| C200 | The loop over the turns, the bobbin, the core and their maxima. | Induction over turns; upper bound, least, witness of a ring. |
| C201 | The doubling of the bound, the bisection and the fixed point of the temperature, over any function. | Invariant of the bracket by induction; geometric convergence of the fixed point. |
| C202 | The formula and its guard. | Algebra over an ordered field. |
| C203 | What each operator== reads, its guards and loops. | Equality of keys; induction over windings; witnesses. |
| C204 | What is written of and read into the parts. | Case analysis; witness. |
| C205 | The two loops of filters, the recorded scores, normalisation, sort, cut and simulation. | Induction over the catalogue; permutation and order; witness of a shared reference. |
| C206 | The recursive call with what it is given. | What passed once passes again, so what is left is empty. |
| C207 | The streak of identical messages over filters and parts. | Invariant of the streak by induction; witnesses. |
| C208 | The sums of `totalScoring` and `usedWeight` over the normalised scores. | Induction over the filters; witness. |
| C209 | The recording of rejections and the normalisation over the accepted. | Refinement to the good scores of area Scoring; witnesses. |
| C210 | The default flow as constructed. | Case analysis over its eight filters; witness. |
| C211 | Settings, catalogues, freezing and scope as state; every step with its exception. | Invariant over the steps of a call and over calls. |
| C212 | The clearing of frozen catalogues as an exception, and one in the destructor as the end of the process. | Case analysis of the whole call; witness. |
| C213 | The inventory of the scope as a content of the catalogues. | Case analysis of the whole call; witnesses. |
| C214 | The adviser's application and mode over a sequence of requests. | Induction over the requests; witness. |
| C215 | The loops over rounds, cores and coils with all their breaks. | Invariants by induction; witness for the retry. |
| C216 | The list of used sections and margins as the code has it. | Commutes with relabelling; witness. |
| C217 | Scores, the drop of invalid ones, sort and cut. | Permutation and order; refinement to the good scores of area Scoring. |
| C218 | Filters as verdict and score. | Congruence over the loops; witness. |
| C219 | Filters that throw, and scores that are no number. | Induction over the filters. |
| C220 | The loop over the cores with both windings, filters and losses of doubles; the sort and the cut. | Equivalence for each core; permutation, order and stability. |
| C221 | The cap of candidates and what comes behind it. | Rewriting; witnesses. |
| C222 | Combinations with turns, parallels, side and windings; pairs, levels. | Induction over levels with a specification of circuits as trees. |
| C223 | Pins with direction and name; the compulsory connections. | Membership in the pairs; witnesses. |
| C224 | The folds over primaries and turns ratios; the check of the inductance and of ratios are any functions. References. | Induction over the folds with an invariant. |
| C225 | The record by name, latest first. | Invariant over the folds; witness. |
| C226 | The comparison of flattened windings. | Induction; witnesses. |
| C227 | The scaling of voltage or current. | Algebra over ordered fields, sum of squares below the square of the sum. |
| C228 | The loop over the windings, with undefined behaviour. | Induction. |
| C229 | The seed, the iteration on the square of the turns, the turns added; the inductance is any function of the turns. | Invariants of the loops; the rounded root through natural numbers. |
| C230 | The three candidates. | The same. |
| C231 | The search with its step and direction; the reluctance is any function of the gap. | Distance no more than the step, halved every two moves; induction. |
| C232 | The loop of the correction and when it is entered. | Induction. |
| C233 | The loop over gaps, with the turns by the classic reluctance. | Induction; the fifteenth gap is enough. |
| C234 | The whole function, the reluctance of the gapped core being any function. | Cases and ordered field arithmetic. |
| C235 | The four functions. | Properties of rounding up. |
| C236 | The demagnetizing factor and the inductances over the reals, the refusals and the choice of the way. | Mean value theorem for the factor, then ordered field arithmetic. |
| C237 | One correction of the permeability; the bias for a current, reluctance and permeability. | Algebra; monotonicity; witness. |
| C238 | The operating point as a state: voltage, current, magnetizing current. | Cases over where the current comes from; witnesses. |
| C239 | The score of the harmonics, the frequency that drives a signal and when it replaces the one stated. | Folds over the harmonics; idempotence by cases. |
| C240 | The powers, the points at which they differ, and the decision, with reads past the end as undefined. | Counting over lists; cases. |
| C241 | The three decisions. | Folds over windings and harmonics; witnesses. |
| C242 | Integration, scaling, offset, the branch on the label; harmonics and processed data as parameters. | Induction over the points; the lemmas on averages of C119. |
| C243 | The differences with the point that closes the period, and the integral. | Telescoping by induction. |
| C244 | The ripple with its threshold and starting values, and the offset. | Folds of minimum and maximum. |
| C245 | The currents, sampled or not, and their sum. | Relation between windings and waveforms; permutations. |
| C246 | Both functions of reflection. | Field arithmetic. |
| C247 | The loop with the operating point as it is at each step, the secondary, and the copy. | Induction over windings; idempotence. |
| C248 | The loop over windings, the flag, the three ways and the loop over operating points. | Induction; alignment of the sampled voltages. |
| C249 | The loop over operating points with the settings as a state and the outcomes of the models. | Induction over operating points; frames of the state. |
| C250 | The same, with the state left by exceptions. | Induction; case analysis of outcomes. |
| C251 | The simulator as an object with the two fields. | Computation; a witness. |
| C252 | Ranges, maxima and the curve. | Folds as extremes; real powers of ten. |
| C253 | Manufacturer information as the datasheet and the rest. | Cases. |
| C254 | The check of integrity of C247, the completion of signals and the loop for magnetizing currents. | Pointwise specification of each loop; composition; idempotence; a rational witness. |
| C255 | `magnetic_autocomplete` function by function over abstract data, catalogues and calculations. | Inversion of the sequence of steps. |
| C256 | The material as one or several. | Inversion; a witness. |
| C257 | Windings and wires with what is looked into: names, numbers, types, dimensions, coatings, strands. | Induction over windings; pointwise specification. |
| C258 | The configuration as texts that are or are not there; the bobbin as its winding windows. | Cases; equality for any two configurations with the same keys; witnesses. |
| C259 | The winding as a function of coil, pattern and repetitions; the pattern of sections is that of C32. | Inversion; composition with C32. |
| C260 | Outcomes with undefined behaviour. | Case analysis of every step; idempotence of each step. |
| C261 | The final loop over operating points and windings, with the magnetizing current of C242. | Pointwise specification; equality for any two currents. |
| C262 | The eight gap models over the reals, with missing data, exceptions, infinities and undefined behaviour as outcomes. | Inequalities of logarithms; equivalence with a bound on the length; witnesses with bounds on pi and logarithms. |
| C263 | The same models. | Permeances that fall with the length. |
| C264 | The same models. | Evaluation at zero. |
| C265 | The same models, with the energy at the saturation remembered. | Field algebra for each model. |
| C266 | The same models. | Cases on what is missing; witnesses. |
| C267 | A reluctance model as a machine that remembers a saturation, and questions put to it. | Induction over histories and over gaps. |
| C268 | The names in the answers. | Cases. |
| C269 | `MagneticEnergy` over the reals. | Field algebra; a witness. |
| C270 | The loop over operating points. | Induction over operating points and over waveforms. |
| C271 | The annular clearance over the reals. | Field algebra; the fringe term is not negative. |
| C272 | The loop that cuts a line, with its state of quotes and parentheses. | Induction over the line, against the counts of quotes and parentheses before each place. |
| C273 | The guess of the separator. | The fold over the candidates is a maximum. |
| C274 | The reading of lines, headers and rows into columns. | Induction over rows and cells. |
| C275 | `std::stod` on decimal numbers, over the rationals. | Induction over digits. |
| C276 | `can_be_time` and `find_time`. | Induction over columns. |
| C277 | The columns of a file and the pairing of two of them. | From C274. |
| C278 | The merging of repeated times. | Induction over samples. |
| C279 | The window of a period over an ordered field. | Invariants of the searches down and up. |
| C280 | The windows that a reader keeps. | A cached window is used unread; a witness. |
| C281 | The numbers in names, and the compaction of indexes. | Induction over names and columns. |
| C282 | The groups of words and the search at the start of words. | Induction over names; cases. |
| C283 | `extract_operating_point` as a transition of the reader. | Induction over columns and windings. |
| C284 | Undefined behaviour as an outcome. | Induction over columns and windings; a witness on a file. |
| C285 | `can_be_voltage`, `can_be_current` and the filter. | The counts are those of the scaled data. |
| C286 | The reader after an operating point. | Recognition is idempotent and windows are only added. |
| C287 | `get_advised_wire`: dataset, filters, scores, sorts and cut, over an ordered field; physical models as parameters. | Each filter keeps the candidates that meet an independent predicate; permutations are composed and the last sort is by score and size. |
| C288 | The normalisation of each filter. | Shares are unique and depend only on the set of values; filters after the area keep all candidates. |
| C289 | The number of parallels of each wire. | The ceiling is the least integer; witnesses. |
| C290 | The ranking. | Resistance and skin losses are those of one wire; proximity is strictly larger; fewer parallels are acceptable too. |
| C291 | The proximity filter. | Shares are invariant under scaling; infinities make the filter throw. |
| C292 | `set_maximum_area_proportion`. | Induction over the results; a witness of two searches. |
| C293 | The two ways to choose wires of the database. | Filters commute; witness. |
| C294 | `calculate_planar_thickness_penalty`. | Piece by piece. |
| C295 | `create_planar_dataset`. | Field arithmetic and induction over wires. |
| C296 | `synthesize_litz_candidates`. | The ceiling is the least integer; cases. |
| C297 | Exceptions and undefined behaviour as outcomes. | Each filter answers on the wires of the dataset. |
| C298 | The whole of AmplitudePermeability.cpp over an ordered field. | The three constants solve the equations of the measured points; the paths are mirror images and are moved by opposite amounts. |
| C299 | The loop for a field strength: the fields looked at, sorted and thinned, and both paths, moved and cut. | Each half path is increasing; the peak survives the thinning; the gap between the paths is largest at the middle. |
| C300 | The loop for a flux density. | Monotone paths and the final cut; a witness by computation in the rationals. |
| C301 | `get_amplitude_permeability`. | The first two kept fields are the lower tip and one within a twentieth of the peak. |
| C302 | The functions of Inputs that answer the largest of something, over excitations with absent or present processed data. | Folds of maximum over gathered values; membership and upper bound. |
| C303 | The same folds, which start from zero. | The fold is zero if all values are negative. |
| C304 | `check_material_application`, `guess_material_application` and the getter that writes the guess down. | Induction over the methods; case analysis over tags. |
| C305 | The choice of candidates. | Membership in filters. |
| C306 | The evaluations, in which exceptions are swallowed, and the sort. | Insertion sort is ordered, a permutation, and keeps the order of equal ones. |
| C307 | The copies with materials. | Membership in flat maps; prefixes of names cancel. |
| C308 | `should_include_powder`. | Case analysis. |
| C309 | The five models over the reals, with `pow`, `sqrt` and divisions that may not be finite. | All five have the rise (losses times a factor) to an exponent, with a factor that falls with the size. |
| C310 | The same. | Monotonicity of real powers; a numerical bound on a root. |
| C311 | The scores kept by filter and reference, and the filters that read them. | Invariant over histories: what is kept is what the magnetics would have on their own. |
| C312 | The same scores. | Arithmetic; a witness. |
| C313 | `MagneticFilterMaximumDimensions` over the model of how magnetics fit. | From the theorem on fits in some orientation. |
| C314 | The whole of the search, with the state that is kept between operating points and a counter that wraps around. | Invariant of the loop: the best so far is the least of the turns tried. |
| C315 | The same. | Witnesses by computation. |
| C316 | The same, and the turns of the windings. | Witnesses; injectivity of division. |
| C317 | The counter. | From the invariant; a witness. |
| C318 | The checks of both datasets, in order, with the cores left behind. | Equivalence with a specification of fitness; membership and order of the candidates. |
| C319 | The same, and the stacks of the second attempt. | Direct; witnesses by computation. |
| C320 | The adviser over cores handed by pointer, and histories of requests. | Invariant of histories; a witness. |
| C321 | Names as strings and the replacement of the expression on characters. | No match reaches over the end of a name; induction on the characters. |
| C322 | The turns of a transformer. | Ceilings. |
| C323 | The search for turns and gap, with the solver a parameter. | Induction on the steps; a witness. |
| C324 | The loop over candidates and the erasure from the last index. | Induction on the candidates, with what stands before them. |
| C325 | The fold over impedances and the choice of the seed. | Induction on the list. |
| C326 | The windings and parallels of the dummy coil. | Ceilings; cases on the number of windings. |
| C327 | The factor over the reals and the scaling of dimensions. | Fourth powers are monotone. |
| C328 | The pipeline over the five dimensions, with readings that may be numbers, not numbers or exceptions. | Invariant of the pipeline; the normalisation of Scoring. |
| C329 | The same. | Normalised scores are antitone in the distance; induction on the dimensions. |
| C330 | The same. | Equivalence with the first dimension that cannot be read; witnesses by cases. |
| C331 | Sessions and histories of calls. | Induction on the history. |
| C332 | The scores remembered. | Invariant of histories; a witness by computation. |
| C333 | The pipeline with one more candidate. | Direct; a witness by computation. |
| C334 | The running minima over the tapes. | Induction on the tapes. |
| C335 | The list without repetitions. | Induction on the tapes. |
| C336 | Dimensions of layers and sections in rectangular and round windows. | Cases. |
| C337 | The strip of a pair and the pairs visited. | Direct. |
| C338 | The same with a thickness chosen. | Direct; the negation in general. |
| C339 | The same in the simple mode. | Direct; the negation in general. |
| C340 | The search over the catalogue, over the model of SectionInterface. | Induction on the catalogue with the best so far. |
| C341 | The same. | Induction on the catalogue. |
| C342 | The layers built of the material chosen. | Thickest against thinnest tape; a witness by computation. |
| C343 | The checks of sections, layers, windows and turns over ratios that may be not a number or infinite. | A characterisation of each loop by induction, put together. |
| C344 | The same. | Rounding is within half a unit of the last decimal. |
| C345 | The same. | From C343. |
| C346 | The factors of a section as folds over its layers. | Inductions for one orientation; a witness for two. |
| C347 | The sum of areas as the code adds it, with the wire of each turn found by its layer. | Induction over the turns. |
| C348 | The report of filling factors beside the acceptance. | Both reduced to sums; witnesses. |
| C349 | The same. | From the definition of the report; a witness. |
| C350 | The edges of a region and their new values. | Algebra. |
| C351 | The loop that shares regions. | Cases on the kinds of windings; pointwise over the list. |
| C352 | The groups made for the windows. | The group of each index, through sharing by C351. |
| C353 | The same. | Direct; the negation for any list. |
| C354 | The assignment. | The same as C352; a witness. |
| C355 | The search for a group by name. | Names are distinct since numbers print differently. |
| C356 | The placement with its movement for each section, its inverse and its flag. | The movements are involutions composed; the table of movements is the same after the placement. |
| C357 | The same. | Every early return leaves the state. |
| C358 | The movement of a position. | Cases on the side and the column. |
| C359 | The crossing given to a turn; the flag. | Algebra; the early return of the inverse keeps the flag. |
| C360 | The check of equal regions and the sharing. | Cases; a witness. |
| C361 | The length of a turn for each shape of column. | Cases on the shape. |
| C362 | The walk over the sections with the entries before each. | Monotone steps; the step of each pair isolated by an append lemma. |
| C363 | The pairing of entries and the split of their margins. | Each step keeps every facing sum, since ordinals of entries are distinct; a fold. |
| C364 | The same. | Algebra for two sections; a witness for three. |
| C365 | The same. | From C362 and C363; a witness. |
| C366 | The plan iterated. | A fixed point of the floors; a recurrence solved by induction. |
| C367 | The recovery and the remap as folds. | Characterised pointwise by induction. |
| C368 | Appending to a list. | List lemmas. |
| C369 | The snapshot around an arbitrary winding. | Cases; the exception of planar wires as witness. |
| C370 | The loop over pairs of sections on a map of angles. | An invariant of the fold with C363; witnesses. |
| C371 | The rings opened one by one and the turns taken back. | The list of rings characterised by induction over the turns left; the sum through each turn taken back. |
| C372 | The same. | What is taken back is less than what the last ring holds; a witness. |
| C373 | The radii and capacities of rings. | Monotonicity of floor and quotient. |
| C374 | The arc sine over the reals with the quotient that is not a number made explicit. | Monotonicity and inverse of the arc sine. |
| C375 | The loop with a number of rounds. | The rings found never decrease and are bounded by those that reach the centre. |
| C376 | The number of layers as the code chooses it, reads beyond the vector explicit. | Cases, with C371; witnesses. |
| C377 | The positions of layers. | Closed form by induction. |
| C378 | The choice of style. | The least of a list by induction. |
| C379 | The resistances with their blocked outcomes. | Algebra of quotients. |
| C380 | The areas of the four faces from the lengths at three radii, with the least radius. | The length is linear in the radius off the column; agreement with the length of Columns. |
| C381 | The areas of the four faces by the place of a half. | Algebra; a witness. |
| C382 | The sum of widths and the clamped quotient. | Closed form, then order. |
| C383 | The test whether a turn is in a segment with its tolerance. | The floor of the quotient for some segment; cases for the only one; witnesses. |
| C384 | The correlations over the reals. | Monotonicity of real powers, and 3.6 to the 12th is below the threshold. |
| C385 | The laminar and turbulent correlations over the reals. | Monotonicity of real powers, and 18 to the tenth is below the cube of the threshold. |
| C386 | The distance of the surfaces with the least dimensions, over a square root given. | Algebra. |
| C387 | The choice of faces. | Cases of signs, against the direction each face looks in. |
| C388 | Both loops, with an exception as an outcome. | Induction over the turns. |
| C389 | The numbers of turns within their winding, and the search by them. | Counting by induction; a witness. |
| C390 | The pair with its searches, caught or not. | Cases. |
| C391 | The test of overlap with the first turn. | Cases; a witness. |
| C392 | The filters of layers. | Membership; a witness. |
| C393 | The four directions and the largest product. | The maximum by induction; the squares of two products add up to one. |
| C394 | The loop over points, with the losses and the thermal model given. | Induction over the points. |
| C395 | The same. | The mean is between the least and the largest; witnesses. |
| C396 | The filter with its outputs. | Cases and induction over the outputs. |
| C397 | The constructor. | Bounds of the ceiling. |
| C398 | The evaluation for windows that are not round. | Algebra and monotonicity. |
| C399 | The same for round windows, with the angle of a chord. | The arc sine of one half. |
| C400 | The cost of a wire and their sum. | Cases and induction. |
| C401 | The model of Filters (Gates.lean). | The forces are the partial sums; maxima of lists. |
| C402 | The choice of inductances in loading and in processing. | Positions in filtered lists; a witness. |
| C403 | The loop that drops near temperatures, against an inductive relation. | Induction. |
| C404 | The same, with any spline through its points. | Induction; witnesses. |
| C405 | The line. | Algebra. |
| C406 | Representatives of groups and the equal shares. | Sums over groups; a witness. |
| C407 | Areas, groups and shares. | Sums over groups. |
| C408 | The check of whole turns and layers. | Bounds of floor and ceiling; a witness. |
| C409 | The step and the walk. | Induction over the wires that are left. |
| C410 | The loop that copies wires, in place. | Induction over the loop; a witness. |
| C411 | Sorting, cutting and the place of a lateral coil, with a distinct outcome for undefined behaviour. | Sorted lists; a witness. |
| C412 | The two passes over the catalogue. | Membership in filtered lists. |
| C413 | Layers by share, their bounds and the stack. | Induction over repetitions; witnesses. |
| C414 | The loop over the catalogue with the names seen. | Induction over the catalogue. |
| C415 | The choice of what is searched in each mode. | Induction over the catalogue; a witness. |
| C416 | The same with the tags. | Cases. |
| C417 | The two loops of the check, against a specification of one excitation. | Induction over points and windings. |
| C418 | `perWinding` of the area Filters (Gates.lean). | Cases; bounds of sums. |
| C419 | `proximityFactor` of the area Filters. | Algebra and monotonicity. |
| C420 | `turnCount` of the area Filters. | Cases; a witness. |
| C421 | `dimensions` of the area Filters. | Induction over layers; cases. |
| C422 | The loop over filters and the flags of the coils. | Induction over filters with the normalisation of the area Scoring. |
| C423 | As above. | One filter; a witness. |
| C424 | The loop over operating points. | Induction over points. |
| C425 | As above. | Bounds of sums; a witness. |
| C426 | The loop over points with its sum. | Induction over points. |
| C427 | The loop with the vector of outputs. | Induction over points, places of the vector. |
| C428 | The product with the losses kept or computed. | From C426; bounds of sums. |
| C429 | The places of the images and the loops over their numbers. | Refinement to an inductive relation of reflections, by induction over the integers. |
| C430 | The share of an image. | Order of fractions; a witness of two cells. |
| C431 | The search for the window, the frame and the crossings. | Induction over the windows; sums of lists. |
| C432 | The inversion in a circle and the list of points. | Algebra of an ordered field. |
| C433 | The loop over a map that grows when it is read. | Invariant: all numbers before the index are keys, so that the size exceeds it just when a key is left. |
| C434 | The points at a turn of flat wire and the samples across it. | Membership of lists; algebra of an ordered field with floor. |
| C435 | The points with which a turn of flat wire induces. | The depth is a minimum of two linear forms. |
| C436 | The depth of the mesh and that of the field. | Comparison of linear forms. |
| C437 | The points at a turn of round wire. | Cases of the second crossing. |
| C438 | The points along the axes and the area of a cell. | Refinement of the linear spacing to the middles of equal parts. |
| C439 | The loop over the windows. | Induction over the windows, with the centres met and the area. |
| C440 | The tests of points and the loops over the grid. | Refinement of each test to a statement about crossings; cases of the settings. |
| C441 | The call that repeats itself with three times the threshold. | Above one nothing reaches the threshold; induction over the calls. |
| C442 | The field of a line current, over the reals. | The inner and outer products of field and distance. |
| C443 | The field with its unit vector from the angle. | The same spec, with the factor. |
| C444 | The turn of the field through its modulus and argument. | Addition formulas. |
| C445 | The step of each conductor. | Induction over the conductors. |
| C446 | The check and the wire as separate functions. | Both polynomials fall with the ratio of the gap to its column. |
| C447 | The wire with its place and current. | Bounds of the polynomials at zero. |
| C448 | The axial field through the arc tangent, with the half turn that is added near the edge. | Bounds of the arc tangent. |
| C449 | The radial field through the logarithm. | The logarithm of a quotient. |

## What is modelled and what is not

Each definition names its lines. Per area:

| Area | Modelled | Not modelled |
|---|---|---|
| Advice | `MagneticAdviser::get_advised_magnetic` over a catalogue, `get_scorings`, `add_scoring`, the default catalogue flow | the filters, the simulator and `std::sort` are given; scores that are not finite end in an outcome of their own |
| Advice.Design | the loops of a design over rounds, cores and coils, `process_wound_candidate`, `score_magnetics`, `drop_invalid_when_valid_exists`, sort and cut | core adviser, coil adviser, simulator and filters are given, by what they answer; compaction of the turns and the fast path |
| Advice.Fast | `MagneticAdviser::get_advised_magnetic_fast` from the cap of candidates on | area product, stored energy, gapping, turns, inductance and saturation filters, winding and losses are given |
| Advice.Restore | the effects of a design (`MagneticAdviser::get_advised_magnetic`) on settings and catalogues, its restorer, and the application the adviser takes from the requests | the search itself: whether it throws, finds something, and loads cores and shapes is given; one thread |
| Adviser | filter machinery, batches, power pipeline with its retries, gap window and search, gap rejection, placeholder materials | what each filter computes for one magnetic, post-processing of one core, logging, the suppression pipelines except their losses step |
| Autocomplete | src/support/Utils.cpp: standardize_signal_descriptor (2423-2436), mas_autocomplete (2460-2492), inputs_autocomplete (2494-2594) and magnetic_autocomplete (2596-2984) | catalogues, processing and geometry of cores, outer dimensions of wires, quick bobbins, winding and simulation (parameters); processed data, harmonics, waveforms made of processed data or harmonics, and the inductance of a magnetic (parameters) |
| Bobbin | Bobbin.cpp: the processors of every family, process_data, create_quick_bobbin in its four forms, get_winding_window_dimensions in both forms, get_filling_factor, load_interpolators (rows used, samples, points, limits, least thicknesses and when it runs), the queries of windows, set/get_winding_orientation, check_if_fits, get_maximum_dimensions and the areas of faces; Bobbin.h: the constructor from JSON after it has been read | the splines between their points, CorePiece and the shapes of cores, the migration and reading of JSON, rounding of doubles, NaN |
| Cache | `Cache<T>`, energy memo of one thread | memos of other threads, JSON reading |
| Catalog | catalogues of all kinds, freeze flag, scopes, families, reset | contents of the records |
| Closest | `find_closest_index`, `get_closest` | rounding |
| CoilAdvice | src/advisers/CoilAdviser.cpp:58-95, 117-213, 222-283, 344-378, 616-678, 794-889, 1220-1232 and 1399-1421: shares, the check before winding, wires offered, the walk, wires of windings wound together, results and the planar stack. | Winding itself, the wire adviser (WireAdvice), insulation and margins, the patterns (Patterns), scoring with its normalisation, shares taken from the inputs. |
| CoilScores | src/advisers/CoilAdviser.cpp:294-333: the scores and the valid flags of coils. | The filters themselves, what they write into the coil, the record of scores by reference. |
| Collisions | `check_collisions` | messages |
| Columns | src/constructive_models/Coil.cpp:7030-7294, 7392-7411, 7413-7642: groups for several windows, sharing of regions, the placement of what is wound and its undoing, the length of turns. | Round windows, proportions of parallels, other coordinates of layers, the choice of the frame of a column (7311-7390), the winding itself between placements. |
| Combinator | `MagneticCombinator`: combinations, virtual magnetics, references and going back | the most restrictive wire, inductance and `check_requirement` (any functions); waveforms of excitations are values at an instant; nested circuits have one flag for series or parallel, as in the code |
| Contacts | src/physical_models/Temperature.cpp:1432-1439, 2112-2296, 2339-2377, 4750-4829 and src/physical_models/StrayCapacitance.cpp:451-520: connections of turns. | The rest of the connections of toroids (insulation in the way by angles, insulation given by the configuration), materials of layers without conductivity, turns to a solid. |
| CoreData | appendPerColumnWindingWindows, the windows of process_data and fits of Core.cpp | the geometry of each piece; the rest of process_data (materials, effective parameters, settings) |
| CoreLosses | CoreLosses.cpp: get_methods, get_core_losses_model, get_method_data, get_steinmetz_coefficients, the correction of temperature, Steinmetz' model and its inverses, the losses of a waveform by iGSE, ciGSE, NSE, Albach, MSE and Barg, the number of points of one period, the correction of bias, semi-shielded drums, the equations of manufacturers and their inverses, the searches of frequency and flux density, the ranges and points of a fit, Roshen's model, series resistance and loss factors; Inputs.cpp: get_switching_frequency, get_magnetic_flux_density_peak and _peak_to_peak | the spline of Barg's model, the evaluation of ciGSE from coefficients of its own (never found), the fit by least squares, the interpolation of loss factors (see C80), the standardisation of waveforms, rounding of doubles |
| CoreModes | src/advisers/CoreAdviser.cpp:51-66, 142-264 and 291-320: what is searched in each mode, the tags and the check of inputs. | The searches themselves, loading of catalogues, the making of custom shapes. |
| CoreTemp | src/physical_models/CoreTemperature.cpp; src/advisers/MagneticFilterGeometry.cpp 119-202; src/advisers/MagneticFilterInternal.h 378-385; src/support/Utils.cpp 159-160 and 178-204 | how the losses of a magnetic are calculated (given); scores that are not numbers; rounding |
| Costs | src/advisers/MagneticFilterAdvanced.cpp:81-213, src/advisers/MagneticFilterEnergyCost.cpp:65-176 and src/constructive_models/Wire.cpp:1665-1698. | The losses, the thermal network, skin depth, filling factor, quick bobbins, the creepage distance. |
| CrossRef | `CoreCrossReferencer`: candidates, filters with their memory, widening loop | physical models behind the values, exceptions on incomplete cores, infinite limit, log |
| Dataset | src/advisers/CoreAdviserDataset.cpp 50-203, 206-495 and the turns of 497-825; src/advisers/CoreAdviser.cpp 357-389; src/physical_models/MagnetizingInductance.cpp 1175-1186 | the processing of cores, materials and gaps (fields and parameters); the gap of resonant transformers (608-692); the combination of turns ratios (810-814); the choice of shape by area product; the wire of the dummy coil; the alternatives of materials (830-859); rounding |
| Datasheet | datasheet saturation filter | the other datasheet data |
| EnumJson | every enumeration serialised by the library itself | the generated MAS enumerations |
| Excitation | src/processors/Inputs.cpp: the frequency that drives a signal (1970-2104), the decision on the offset (213-327), chokes and multiport inductors (453-575), the differential mode choke (689-766), the voltage induced by sampled or imported currents (850-900), reflection (1099-1183), check_integrity (1185-1324), ripple and magnetizing current (1698-1768, 1850-1937), process_operating_point (2106-2300) and process (2302-2338) | the harmonics and processed data of a waveform, the guess of the duty cycle, create_waveform out of processed data, reconstruct_signal, the current of a common mode choke and the rest of calculate_induced_voltage (parameters); compressing is only that of C124 |
| Faces | src/physical_models/ThermalNode.cpp:14-62, 130-199, 247-339, 480-527, src/physical_models/ThermalResistance.cpp:38-132, src/physical_models/ThermalResistance.h:32-78 and src/physical_models/Temperature.cpp:576-683, 1507-1587, 1654-1655, 1715-1724: faces, their exposure, and convection. | The places of faces, the conductivities of materials, coatings of the core, how faces are found to touch, the network (in Network), radiation (in Thermal). |
| Fft | fft, ifft, reconstruct_signal of Inputs.cpp; fft, get_main_harmonic_indexes as used there, calculate_harmonics_data, calculate_processed_data of a waveform of WaveformProcessor.cpp | rounding of doubles, also in the quotient that gives the number of points of a reconstructed signal; sizes from 2^32 on, which unsigned int cuts; the times of reconstructed signals |
| Filters | MagneticFilterLosses.cpp: the sweep of turns of both filters by losses; MagneticFilterPhysical.cpp: saturation and current densities; MagneticFilter.cpp: magnetizing inductance; MagneticFilterEnergyCost.cpp: energy stored; MagneticFilterImpedance.cpp: impedance and the search for a minimum impedance; MagneticFilterGeometry.cpp: turns ratios, turn count, dimensions; MagneticFilterAdvanced.cpp: magnetomotive force; MagneticFilter.cpp: solid insulation and fringing factor, with the search of Reluctance.cpp for the gap of a factor; MagneticFilterArea.cpp: area product | what each filter calls to measure (losses, flux, inductance, impedance, areas) is a parameter; the factory, areas of sections, cost, leakage and temperature filters, the caches of scorings; rounding of doubles |
| Fitting | src/constructive_models/Coil.cpp:5684-5841 and 5843-6027: the checks of whether a coil fits and its filling factors. | The text of failures, diagnostics, exceptions of resolving wires and bobbins, layers without section and turns without layer. |
| FlatMesh | src/support/CoilMesher.cpp:784-970: the points of flat turns and those at round ones; src/physical_models/MagneticField.cpp:833-844: the depth that the field assumes. | The field itself, the throw for round windows, the sizes of wires. |
| Fringing | src/physical_models/MagneticField.cpp:1329-1353: the field of a gap in the model of Roshen. | Points where a quotient divides by zero; copied indexes. |
| GapWire | src/physical_models/MagneticField.cpp:1271-1327: the range of validity of the model of Albach and the wire that stands for a gap. | Sections of no width; the field of the wire. |
| Gapping | distribute_and_process_gap, process_gap, process_gap_or_throw, set_gap_length, create_ground_gapping, create_distributed_gapping, create_spacer_gapping, create_residual_gapping, is_gapping_misaligned, find_closest_column_index_by_coordinates, find_exact_column_index_by_coordinates and scale_to_stacks (columns and gaps) of Core.cpp | the columns and windows of each shape; the text of failures; coordinates of other than three values; lengths that are not numbers; rounding of doubles other than roundFloat, which is exact; the loop without end of create_ground_gapping for no columns is an outcome, not a run |
| Grid | src/support/CoilMesher.cpp:69-296: the grid of a winding window and the tests of its points. | Turns without dimensions, for which the tests throw; the sizes of core and bobbin; the frequency. |
| Harmonics | selection of main harmonics | computation of harmonics from waveforms |
| Hysteresis | src/physical_models/AmplitudePermeability.cpp, whole file but for the search of the material by name | materials without coercive force or remanence (the code sorts not-a-number values); interpolation of the data of the material; rounding |
| Images | src/support/CoilMesher.cpp:417-422, 523-528, 532-771: the conductors and images of a turn of round or Litz wire, and the collection of fields by harmonic. | The meshes of rectangular, foil and planar wires, the mesh of the window, the field itself, the permeability of the core, the copies of length, number and rotation. |
| Impedance | Impedance.cpp 74-574 (impedance, tanks, differential mode, quality factor, self resonance, permittivity, attenuation, minimum number of turns), with the reluctance of Reluctance.cpp 19-27 and 102-112 at permeability one | winding of the coil, stray capacitance (see C141 to C149), leakage inductance, resistances and complex permeability (given as functions); frequency zero beside a capacitor |
| Inductance | calculate_leakage_inductance, calculate_leakage_inductance_matrix, calculate_leakage_field_energy, integrate_leakage_energy, create_excitation_operating_point and create_leakage_operating_point (the peaks) of LeakageInductance.cpp; calculate_inductance_matrix, calculate_mutual_inductance, calculate_self_inductance, calculate_coupling_coefficient and calculate_magnetizing_inductance_referred_to_winding of Inductance.cpp; ExtendedCantilever.cpp | the field itself, which is linear in the currents; harmonics of a sine; the magnetizing inductance and the network, which are given (the network has its own area, and `network_passive` joins them); rounding of doubles |
| Insulation | table interpolation, coordinator, electric field limit and thickness search | the standards' own table choices (arbitrary functions here) |
| LibCtx | `loadFromJson`, constraints filters | parsing of the single records (parameter) |
| LineField | src/physical_models/MagneticField.cpp:995-1031, 1136-1145, 1174-1269: the field of a conductor of round or Litz wire at a point. | The field of flat wires and of gaps (1033-1134, 1271 on); copied lengths and labels. |
| Loading | src/constructive_models/Mas.cpp:31-49 with src/processors/Inputs.cpp:2314-2334: which inductance each point is processed with. | Parsing, the building of coil and magnetic. |
| Logger | levels, sinks, threads | formatting, file sinks |
| Lookups | lookups by name, `get_wires` memo |  |
| LossScore | src/advisers/MagneticFilterLosses.cpp:498-526, 532-565 and src/advisers/MagneticFilterGeometry.cpp:170-175, 191-195: the score by losses, the outputs written with it, and the score by losses and volume. | The losses themselves. |
| LossSweep | src/advisers/MagneticFilterLosses.cpp 42-255 and 277-492; src/advisers/MagneticFilterInternal.h 304-371 | the models of losses, saturation, inductance and winding (functions of the turns); their exceptions but for that of saturation; bobbins and settings; core losses that are not finite; rounding |
| Magnetic | `Magnetic::get_maximum_dimensions`, `fits`, `calculate_saturation_current`, `calculate_rated_current`, `operator==` of Magnetic, Wire, Inputs and Mas, `Coil::get_maximum_dimensions`, what `from_json` and `to_json` do with the core and the coil | the dimensions of cores and bobbins, the inductance, the flux density of saturation and the thermal solution are given; distributors, manufacturer and rotation in JSON; migration before reading (area Migration) |
| Magnetizing | `MagnetizingInductance`: turns for an inductance, gap for turns, gap and turns for a saturation, Faraday's law, drums, the inductance at an operating point and what is left of it | waveforms (signals are opaque), harmonics below the switching frequency, windings around other columns, inductance of the air, number of distributed gaps, exceptions of what is called |
| Margins | src/constructive_models/Coil.cpp:4061-4084, 4294-4332, 4348-4366, 6821-6988, 8301-8303, 8387-8418, 8681-8741, 13424-13437: margin tape, its equalising, its recovery from a wound coil and the insulation it replaces. | Adding margins to a wound section (13439-13499), the winding of sections with their margins, how interfaces get their distances (in SectionInterface), margins left behind by an exception of the walk itself. |
| MaterialRef | src/advisers/CoreMaterialCrossReferencer.cpp 28-37 and 59-480, with src/advisers/CrossReferencerCommon.h 229-238 and 305-319 | the scored values, the log, the values of the materials themselves and the average of losses (parameters), the guess of the application, a changed configuration of the filters |
| Materials | src/advisers/CoreAdviserMaterials.cpp and src/constructive_models/Core.cpp 2150-2279 | the models of losses and of complex permeability (parameters); logging; rounding |
| Maxima | src/processors/Inputs.cpp 2909-3190 | how absent processed data is calculated again (a parameter); rounding |
| MeshHarmonics | src/support/CoilMesher.cpp:34-67: the selection of the harmonics of a mesh, over the area Harmonics. | Harmonics computed from waveforms. |
| Migration | the whole migration and its table |  |
| Names | src/constructive_models/Coil.cpp 8518, 8643 (names of sections, with the loops of 8442-8666), 9671, 9759, 9835-9841 (layers), 10662, 10704 (turns), 4949-4996, 5539-5559, 5610-5656, and Coil.h 564 | the names of sections of planar and round windows, names of windings wound together, which are put back by another function (area WoundWith), the number of layers of insulation of a section (9795-9820: any number); negative parallels |
| Network | ReluctanceNetwork.cpp whole; get_main_column_index, get_winding_window_column_index and find_closest_column_index_by_coordinates of Core.cpp; the sums of get_gapping_reluctance of Reluctance.cpp; the short circuit inductance of LeakageInductance.cpp | cores that are not processed; rounding of doubles and infinities; coordinates of other than three values; the gaps processed again are a parameter; the reluctance of each gap |
| NumberTurns | the whole class |  |
| Pattern | winding pattern derivation | the rest of `magnetic_autocomplete` |
| Patterns | Coil.cpp: get_patterns, get_repetitions, check_pattern_and_repetitions_integrity; Inputs.cpp: get_isolation_sides_used; the loops over them of CoilAdviser.cpp and MagneticFilter.cpp | the rest of the adviser of coils; the real geometry itself |
| Permeability | src/physical_models/InitialPermeability.cpp 128-194, 436-873, 923-1060 with the caches of InitialPermeability.h 21-23; ComplexPermeability.cpp 228-337 with the caches of ComplexPermeability.h 10-18; CoreLosses.cpp 2695-2767 with the cache of CoreLosses.h 26 | `tk::spline` (not in the repository; a parameter, undefined below three points), the formulas of manufacturers (a parameter), the amplitude permeability (a parameter), the derivation of complex points from the initial permeability (any computation that asks for permeabilities), the order of `std::sort` at equal abscissas (stable here), threads (the caches are per thread); doubles are exact numbers |
| PowerMean | src/advisers/MagneticFilterInternal.h:210-272: the power by which the budget of losses is set. | The sampling of waveforms, the choice of the primary excitation. |
| Reader | src/processors/CircuitSimulatorInterface.cpp 1763-2635 and 73-87 (`CircuitSimulationReader`): text, lines, separators, headers, rows, time, period, windings, kinds, names, operating point; CircuitSimulatorInterface.h 648-723 | rounding, infinities and not-a-number; locale and hexadecimal forms of `std::stod`; reading of the file from disk; sampling, processed data and harmonics of the waveforms (functions of what is modelled) |
| Reluctance | src/physical_models/Reluctance.cpp: the gap models (264-345, 366-467, 489-529, 552-591, 616-660, 692-755, 780-800, 830-879), get_annular_clearance_gap_reluctance (120-172), factory (887-916), and what get_core_reluctance and get_gapping_reluctance say of gaps (81-112, 174-236); Reluctance.h (24-25, 46-60, 193-201); src/physical_models/MagneticEnergy.cpp (34-151, 153-232) | rounding (numbers are reals); areas and sections that are not positive; get_air_cored_reluctance; the processing of gaps and currents; saturation and permeability of materials (parameters) |
| Requirements | `check_requirement`, `resolve_dimensional_values` |  |
| Resistivity | src/physical_models/Resistivity.cpp:15-45. | The spline; the factory. |
| Rings | src/constructive_models/Coil.cpp:6766-6815, 8897-8911, 9959-9990, 10008-10013, 10015-10107 and src/support/Utils.cpp:2189-2203: the rings of toroids, their turns and layers. | Conversions to 64 bits, rounding of positions, the split of turns among parallels (in Winding), insulation layers between sections (10114-10179), how blocked slots are found, the turns themselves. |
| Sampling | sample sizes, spaced arrays | rounding of logarithms (a bound on it is a hypothesis) |
| Scoring | both normalisations, reported scores | rounding |
| SectionInterface | interfaces between sections, layers |  |
| Settings | every member and accessor (extracted), guards, reset, saturation margin use | threads |
| Simulator | src/processors/MagneticSimulator.cpp: simulate (16-146) and build_datasheet (148-434), with the fields of MagneticSimulator.h | the models of inductance, leakage, losses and temperature (parameters); part number, description and material of the datasheet; real and imaginary parts and phase of its impedances |
| Standards | `InsulationIEC60664Model`, `InsulationIEC62368Model`, `InsulationIEC61558Model`, `InsulationIEC60335Model` (src/constructive_models/Insulation.cpp 500-1745) and the tables in src/constructive_models/Insulation.h, transcribed in full for the entries read | resolution of the inputs to one query (maxima over windings and operating points, `resolve_dimensional_values`); JSON parsing of the tables; doubles are exact numbers; `sqrt(2)` and the skin depth are parameters with stated bounds; the distance through insulation for solid insulation other than the search of C25; the overload of `calculate_distance_through_insulation` that ignores thin layers |
| StrayCapacitance | StrayCapacitance.cpp: calculate_voltages_per_turn from voltages and from an operating point, get_effective_relative_permittivity, calculate_winding_to_core_capacitance and _self_energy and calculate_through_core_capacitance from the elements of the turns, calculate_turn_to_core_capacitance, the pairs of calculate_capacitance_among_turns, calculate_capacitance_matrix_between_windings, calculate_six_capacitor_network, calculate_capacitance_with_voltages, calculate_maxwell_capacitance_matrix, cab, cas and the end of StrayCapacitanceOneLayer::calculate_capacitance | which turns surround another and areas between them, insulation layers, the models for the capacitance of two turns, the elementary capacitances and the fallback of one layer, the reported capacitance matrix, rounding of doubles and values which are not numbers other than in the condition of the search |
| Strips | src/constructive_models/Coil.cpp 6134-6539 and src/constructive_models/InsulationMaterial.cpp 16-27 and 50-98 | the angle a distance takes in a round window (a parameter), names, materials and coordinates of the layers, the standards behind the coordination |
| Sweeper | Sweeper.cpp: the axis of every sweep, the sweeps of impedance, common mode, differential mode and quality factor, and the flux density of the sweep of core losses for one winding with current | the quantities of the other sweeps (given as functions of the value), titles, compression of a sampled current before its flux |
| Text | `strip_cr`, `normalize_micro_sign`, `parse_ndjson`, `split` | the JSON parser (parameter) |
| Thermal | SimpleMatrix::solve, detectCoolingType, recalculateConvectionResistances, solveThermalCircuit, getBulkThermalResistance, getTemperaturesByComponentType, getTemperaturePerTurn, getTemperatureAtPoint, applyForcedConvection, applyHeatsinkCooling, applyColdPlateCooling and the losses given to nodes by createToroidalCoreNodes, createConcentricCoreNodes and createTurnNodes of Temperature.cpp; calculate_core_part_volumes (as products of sizes) and calculate_core_loss_fractions of CorePiece.cpp; calculateRadiationCoefficient, the laminar branch of calculateForcedConvectionCoefficient, getWireMaterialThermalConductivity and getMaterialThermalConductivity of ThermalResistance.cpp | nodes, surfaces and contacts made from geometry (createThermalNodes but losses, createThermalResistances); the coefficients of natural and of turbulent convection, which are any functions of the temperature; checks for temperatures that are not finite; printing; whether the iteration converges; rounding of doubles |
| Waveforms | calculate_waveform_average, multiply_waveform, sum_waveform, add_waveforms, subtract_waveforms, shift_waveform, is_waveform_imported, is_waveform_sampled, calculate_derivative_waveform, calculate_integral_waveform, scale_time_to_frequency of a waveform, calculate_max_volt_seconds, and the waveforms of add_signals, subtract_signals and shift_signal of Inputs.cpp; calculate_sampled_waveform, compress_waveform, create_waveform, measure_duty_cycle_from_samples, try_guess_duty_cycle, calculate_offset, guess_sinusoidal_or_custom, try_guess_waveform_label, calculate_basic_processed_data and calculate_processed_data of WaveformProcessor.cpp | the sine, which is any function; values that are not finite; harmonics of signals, for which see the area Harmonics; rounding of doubles other than that done on purpose to a number of decimals |
| Winding | src/constructive_models/Coil.cpp: `get_parallels_proportions` 6029-6116, `wind_by_consecutive_turns` 5108-5264, `get_ordered_sections` 6541-6563, `add_insulation_to_sections` 6565-6640, `plan_section_group` 8231-8421, `wind_by_rectangular_sections` 8423-8679, bookkeeping of `wind_by_round_sections` 8743-9040 with `get_section_areas` and `get_length_proportions` 6697-6764, the conduction branch of `wind_by_rectangular_layers` 9280-9795, `wind_by_rectangular_turns` 10272-10732 with the helpers 49-215 | lengths of turns and the helical pitch of real winding geometry (parameters), the rejection of planar wires; the space connections take from each layer (a parameter), insulation layers between sections, round layers, filling factors; how proportions, margins and insulation sections are computed; coordinates of round sections; several groups in round windows; floating point drift of proportions |
| WindingLosses | src/physical_models/WindingOhmicLosses.cpp 18-422, WindingSkinEffectLosses.cpp 173-384, the summation of WindingProximityEffectLosses.cpp 183-326, WindingLosses.cpp 10-142 and the stages of 169-289, src/processors/Inputs.cpp 1443-1553 (pruning of currents), and the lookups of src/constructive_models/Coil.cpp 5439-5473, 5610-5627, 13501-13529 | the formulas of the models and the resistivity (parameters), the computation of the field (a parameter; only its refusal of windings without current is there), the making of the markers of connections, the processing of currents before the stages (WindingLosses.cpp 177-194: currents are taken to have harmonics), sampling of waveforms, tests for NaN, coordinates of fewer than two values, negative parallels; voltages and magnetizing currents in the pruning; WindingLossesPeec2D.cpp, which calls the combination (717) with losses of its own |
| Wire | Wire.cpp: conducting and effective areas (1158-1221, 1380-1466, 679-708), parallels (1468-1500), interpolators of diameters and their maps (206-474, 530-677, 757-945), litz bundles (710-755, 876-945), labels of coatings (1914-2104), equivalent wires (2156-2355), cuts to a section (1634-1663), layers and thickness of coatings (1007-1024, 1750-1773) | the spline and skin depth (given), width and height of rectangular wires, loading of the catalogue, coating and outer dimensions of equivalent wires, relative cost, coating thickness of litz |
| WireAdvice | src/advisers/WireAdviser.cpp 26-89, 92-348 (the filters), 350-413, 443-582, 595-832; src/advisers/MagneticFilterArea.cpp 287-312, 337-364; src/advisers/MagneticFilterImpedance.cpp 309-318, 342-355; src/constructive_models/Wire.cpp 1347-1360, 1417-1427, 1496-1556, 1600-1617, 1634-1663 | resistance, skin losses, effective area, solid insulation (modelled in Filters) and the angle of a wire in a toroid, which are parameters; `create_quick_litz_wire`; rounding and overflow; logging |
| WireByDim | `find_wire_by_dimension` |  |
| WireRequirements | wire insulation requirements |  |
| WoundWith | src/constructive_models/Coil.cpp 5620-5627, 7644-8226 (virtualization of windings and back), 9236-9278 (wind_by_layers), 10220-10270 (wind_by_turns), with the members of Coil.h 847-850 | what winds the virtual windings (a parameter; parts of it are in the area Winding), the replacement of names of turns by a regular expression (a parameter), the insulation between sections, an empty name of the first winding; the cache of indexes by name is cleared before each use here and is left out |

## Disagreements found

Where the code does not have the property, the negation is proved with a concrete witness and the property is kept as a partial theorem (or the exception is part of the statement).

* C02: evicting from a frozen catalogue and ending a scope while frozen change it (`Catalog.frozen_evict_changes, Catalog.frozen_scope_end_changes`)
* C03: scopes that are not nested, or move-assigned, leave overlays behind (`Catalog.scope_leak_when_not_nested, Catalog.scope_leak_after_move_assign`)
* C04: a lookup in an empty kind of a Replace scope loads the embedded catalogue (`Catalog.replace_scope_shows_internal`)
* C05: a failing `loadFromJson` keeps the kinds loaded before the failure (`LibCtx.load_not_atomic`)
* C07: the first call ignores its multiple, and after a divergence exception bad combinations are returned (`NumberTurns.first_call_ignores_multiple, NumberTurns.bad_combination_returned`)
* C08: free text equal to a legacy spelling is rewritten; the inside of a cost is not migrated (`Migration.free_text_rewritten, Migration.nested_cost_not_migrated`)
* C09: a negative nominal value rejects every value; a nominal below the minimum is not noticed (`Requirements.check_negative_nominal_rejects_all, Requirements.check_nominal_below_minimum_unnoticed`)
* C11: logarithmic normalisation gives a negative score to a positive value below 1e-10 next to a zero (`Scoring.log_out_of_range`)
* C12: ties at zero are not neutral; a NaN in front gives everyone the whole weight; reported scores leave [0, 1] (`Scoring.cross_tie_at_zero_not_neutral, Scoring.cross_nan_first, Scoring.reported_negative`)
* C14: a batch size of zero never finishes (`Adviser.batch_zero_never_finishes`)
* C15: the limit used exceeds the configured one; earlier calls leak into later ones; the list is cut before the losses filter (`CrossRef.limit_exceeded, CrossRef.stale_reference, CrossRef.second_call_looser, CrossRef.cut_before_losses`)
* C16: windings beyond the published list and other entries are not checked; a rejection can carry the best score (`Datasheet.winding_beyond_list_unchecked, Datasheet.other_entries_ignored, Datasheet.rejected_with_best_score`)
* C17: the index returned is not always the nearest (`Closest.closest_wrong`)
* C18: a blank line ended by CR LF is handed to the parser (`Text.crlf_blank_line_not_skipped`)
* C19: letters whose UTF-8 encoding ends in B5 are damaged (`Text.micro_breaks_other_utf8`)
* C20: splitting at an empty delimiter never returns (`Text.split_empty_diverges`)
* C21: the public `_debug` survives a reset (`Settings.reset_keeps_debug`)
* C22: a NaN saturation margin is accepted and disables the gate (`Settings.margin_nan_accepted`)
* C23: a table with one row gives DBL_MAX beyond it (`Insulation.interp_single_row`)
* C25: with a NaN voltage the thickness search never returns (`Insulation.search_nan_never_returns`)
* C26: the interface can be thinner than the distance through insulation; an exception leaves another insulation type behind (`SectionInterface.too_thin, SectionInterface.type_leaks_on_exception`)
* C27: the insulation type of the inputs is overwritten (`WireRequirements.type_overwritten`)
* C28: filter operations do not accept their own identifiers (`EnumJson.filter_identifier_rejected`)
* C29: `get_wires` is stale after a replacement of the same size (`Lookups.get_wires_stale`)
* C31: families are missing after `load_databases` and stale after an overwrite (`Catalog.families_missing_after_load_databases, Catalog.families_stale_after_overwrite`)
* C33: merged indexes are not increasing; the overloads disagree without AC; a threshold above one selects nothing (`Harmonics.operating_point_not_sorted, Harmonics.overloads_disagree, Harmonics.nothing_above_one`)
* C34: a default-constructed wire is returned when only litz wires or none match (`WireByDim.litz_gives_empty_wire`)
* C35: a power of two is doubled when the quotient of logarithms rounds up (`Sampling.roundUp_doubles_when_quotient_rounds_up`)
* C36: level OFF does not silence messages logged at OFF (`Logger.off_is_not_silent`)
* C38: turns without coordinates are undefined behaviour (`Collisions.missing_coordinates_ub`)
* C39: the energy index is not maintained by evict and load (`Cache.energy_filter_stale_after_evict, Cache.energy_filter_misses_after_load`)
* C40: a reset with default flags keeps stale cores (`Catalog.reset_keeps_stale_cores`)
* C42: a message can reach a sink registered after its check (`Logger.overtaken_message_reaches_new_sink`)
* C43: losses, minimum impedance, temperature and turn-count filters pass everything at weight zero (`Adviser.optional_zero_weight_passes_all, Adviser.optional_weight_matters`)
* C45: the reported maximum gap can exceed the column and fringing limits (`Adviser.max_gap_above_limits`)
* C48: standard cores: ferrite and powder candidates are concatenated without sorting; unique shapes are lost when batches are merged (`Adviser.standard_cores_not_ranked, Adviser.batches_repeat_shapes`)
* C49: saturation scores are credited to other cores (`CrossRef.saturation_misattributed`)
* C50: a file given to a loader is ignored after load_databases without internal data (`Catalog.file_ignored_without_internal_data`)
* C51: a failed load leaves a truncated catalogue, and a refused core in it (`Catalog.truncated_catalogue_after_failed_load, Catalog.corrupt_core_stays`)
* C53: IEC 61558: beyond 1000 V overvoltage category IV asks for less than category I (`Standards.withstand615_category_lowers`)
* C54: IEC 61558: above 30 kHz the clearance falls from 11 mm to 1.8 mm when the peak voltage passes the end of table 104; above 2000 m the smaller clearance of IEC 60664 is returned. IEC 60335: a higher primary voltage lowers the clearance (`Standards.clearance615_voltage_lowers, Standards.clearance615_altitude_lowers, Standards.clearance603_primary_lowers`)
* C55: IEC 60664: with the clearance included, a higher voltage or a stronger class can lower the creepage distance (`Standards.creepage664_voltage_lowers, Standards.creepage664_class_lowers`)
* C57: IEC 60664: the creepage distance is a third of the clearance it is meant to include; IEC 60335: rounded below the clearance (`Standards.creepage664_below_clearance, Standards.creepage603_rounds_below`)
* C59: clearance (IEC 60664, IEC 62368) and creepage distance (IEC 60335, IEC 61558) fall at higher frequencies; the 25 % increase of the homogeneous field is dead code (`Standards.clearance664_frequency_lowers, Standards.clearance623_frequency_lowers, Standards.creepage603_frequency_lowers, Standards.creepage615_frequency_lowers, Standards.homogeneous_increase_dead`)
* C60: IEC 61558: a working voltage of 6000 V is to be tested with 5500 V (`Standards.withstand615_below_working_voltage`)
* C64: zero repetitions is undefined behaviour; a winding without turns makes winding throw (`Winding.sections_zero_repetitions, Winding.sections_no_turns`)
* C67: insulation from the last winding to the first sticks out of the window; a group oriented unlike the coil takes the wrong dimension of the insulation (`Winding.sections_overflow_window, Winding.sections_mixed_orientation`)
* C68: two windings of ten turns wound alternately twice around a toroid throw `unassigned parallel proportion` (`Winding.round_sections_unassigned`)
* C69: a section told to use zero layers loses its turns; so does a layer with less space than a row of parallels (`Winding.layers_zero_drops_turns, Winding.layers_blocked_drops_turns`)
* C71: with overflow across layers allowed, parallels wound together are still limited to the layers that fit: twelve turns where five fit (`Winding.layers_overflow_ignored`)
* C71: with real winding geometry, parallels forced together are not given the extra layers they need (`Winding.layers_real_overfull`)
* C72: contiguous layers aligned to the bottom stick out of the section by the insulation between them (`Winding.layers_bottom_ignores_insulation`)
* C73: with real winding geometry the parallels of a layer are wound together even when the section has unequal numbers of turns of them, and a turn is lost without an error (`Winding.turns_real_loses_turn`)
* C77: a material that takes the name of another is answered with the curves of the other, on threads that computed them: nothing clears the caches, not even reloading the catalogue (`Permeability.name_reused_answers_with_old_material`)
* C79: the factors of temperature and frequency are multiplied, and the product goes below one although neither does (`Permeability.permeability_below_vacuum`)
* C81: a point without a frequency among points with one is read through an empty optional (`Permeability.point_without_frequency_undefined`)
* C81: exactly two frequencies make a spline of two points, which `tk::spline` does not allow; the temperature curve has a special case, the frequency curve does not (`Permeability.two_frequencies_undefined`)
* C81: exactly two biases likewise (`Permeability.two_biases_undefined`)
* C83: when what winds throws while the virtual windings are in place, nothing puts the real ones back: whoever catches the exception has a coil with other windings (`WoundWith.failed_sections_lose_windings`)
* C84: a list on the first of two windings is ignored, the same list on the second is not (`WoundWith.list_of_first_ignored`)
* C84: three windings of which the second is wound with both others get a virtual winding named after the first and a map that expects the second: winding throws (`WoundWith.chain_not_wound`)
* C85: names of virtual windings are never removed: wound again with fewer windings, a section finds a name of the first time, holds no winding, and winding layers reads the first of no partial windings (`WoundWith.rewound_section_lost`)
* C86: the factor of skin effect is kept under the name of the wire, or under its number of conductors and outer size: another wire alike in that gets the factor of the first (`WindingLosses.wire_of_same_name`)
* C88: the losses of connections are put in the total and in the element of their winding, but the elements of windings are replaced by the sums of their turns: the copper of connections is in the total and nowhere else (`WindingLosses.connections_lost`)
* C89: the parallel of a turn is used as an index without a check against the parallels of its winding (`WindingLosses.parallel_past_the_end`)
* C89: harmonics that are there but empty have their first entry read (`WindingLosses.harmonics_empty`)
* C91: the name of a section of a winding named 'Insulation between A and B' can be that of the insulation between A and B (`Names.section_names_clash`)
* C91: groups given by the user that share a winding both name its sections from zero (`Names.section_names_shared`)
* C92: a turn found by name is never forgotten: after winding again the old turn is given (`Names.turn_by_name_stale`)
* C92: the index of a winding found by name is kept when the windings are replaced (`Names.winding_index_stale`)
* C97: ReluctanceNetwork.h says that with every winding on the main column the network gives exactly the turns squared over the total reluctance. With gaps in the other columns that are not alike, the network gives something else (and `get_gapping_reluctance` takes the gaps of all other columns in parallel even when they are in the same column or when a column has none, so that one more gap lowers the reluctance). (`Network.return_gaps_not_lumped`)
* C97: The number of gaps is compared with the number of reluctances before gaps without coordinates are processed, which can add gaps; the reluctances of those are read past the end. (`Network.gaps_read_past_end`)
* C98: A winding interleaved between two columns is to be refused, but a section without a window is not looked at, though its default is the main column: the whole winding is attributed to the other column. (`Network.section_without_window_moves`)
* C99: The comments of distribute_and_process_gap say that a spacer separates every column equally. Written with the residual gaps of the other columns, or more often than there are columns, it goes to the winding column only. (`Gapping.spacer_with_residuals`)
* C100: Gaps down a column are checked against its ends only: three gaps of 7 mm are accepted in a column of 16 mm. (`Gapping.overlapping_gaps_accepted`)
* C100: All gaps down a column take the length of the first for the distance they keep: a longer one that sticks out of the column is accepted. (`Gapping.room_of_first_length`)
* C101: Processing gaps again is idempotent for a drum with a ring, as MagnetizingInductance.cpp says, but not for others. For one ground gap the distance to the nearest surface goes from height/2 - length/2 to height/2 - length on the second pass, the value that Core.cpp says was tried and gives a reluctance 28 % too high. A core saved and loaded, and cores processed again by the advisers, go through this. (`Gapping.ground_gap_loses_room`)
* C101: A ground gap longer than half its column is accepted once and refused the next time. (`Gapping.ground_gap_refused_again`)
* C102: set_gap_length ignores that the length does not fit: the gap has the new length and the distances of the old one. (`Gapping.length_too_long_not_told`)
* C102: process_data multiplies the area of gaps by the number of stacks each time it is called; process_gap puts it right unless the gaps do not fit or it is not called. (`Gapping.stacked_twice`)
* C103: With the setting of one window per column, a core that declares more windows than its columns can have gets windows twice on the same columns; with the setting off it is refused, as the comment says it should. (`CoreData.surplus_windows_duplicated`)
* C106: The comment of calculate_inductance_matrix says that the matrix reproduces the leakage of the pair in short circuit. It gives less by (mutual leakage - ratio x self leakage of the second)^2 over the self inductance of the second. (`Inductance.short_circuit_differs`)
* C106: For windings on two columns the leakage of the pair leaves out the self leakages of the windings, which the inductance matrix has. (`Inductance.short_circuit_across`)
* C107: The matrix is a map by name: windings of the same name overwrite one another. (`Inductance.same_names_lost`)
* C107: calculate_mutual_inductance, and so calculate_coupling_coefficient, leave out the mutual leakage that calculate_inductance_matrix adds for the same pair. (`Inductance.coupling_without_leakage`)
* C107: ExtendedCantilever::calculate_inductance_matrix, which the exporters use, keeps the leakage between windings on two columns that Inductance::calculate_inductance_matrix leaves out. (`Inductance.two_matrices_differ`)
* C107: ExtendedCantilever.h says that with leakage the matrix is positive definite and that all couplings are below one. Currents without net ampere turns and without field are enough against it. (`Inductance.definite_fails`)
* C109: short_circuit_output_inductance takes the magnetizing inductance for the self inductance of the first winding, and turns for the open circuit ratios of the paper. With leakage in the first winding it is wrong at some winding; the exporters to NL5 and Simba use it. (`Inductance.output_inductance_wrong`)
* C109: build_from_leakage_matrix checks the number of rows and not their lengths. (`Inductance.short_row_undefined`)
* C114: solveThermalCircuit starts the maximum at the ambient's temperature: on a cold plate below it the reported maximum is that of no part. (`Thermal.maximum_not_hottest`)
* C115: createTurnNodes refuses another number of losses than turns for toroids only; for other cores losses beyond the turns are dropped. (`Thermal.spare_losses_dropped`)
* C115: TemperatureConfig::toroidalSegments is not checked: with 0 the losses of a core are dropped. (`Thermal.no_segments_lose`)
* C116: applyColdPlateCooling uses the interface resistance only when a thickness is given, which it does not use. The comment in applyHeatsinkCooling describes this as a defect that was fixed there. (`Thermal.plate_ignores_interface`)
* C116: The mixed coefficient of applyForcedConvection is replaced by that of forced convection alone from the second iteration on, which goes to zero with the speed: slow air cools worse than still air. The comment in calculateForcedConvectionCoefficient says that low speeds use the natural path, but only speeds that are not positive do. (`Thermal.slow_air_cools_worse`)
* C118: getMaterialThermalConductivity and getWireMaterialThermalConductivity call each other without end for a wire material in the database without a table of conductivities. (`Thermal.material_never_ends`)
* C118: In a table with a temperature twice the conductivity at it is 0 / 0. (`Thermal.repeated_temperature_nan`)
* C119: calculate_waveform_average reads the times without a test: a waveform without them is undefined. (`Waveforms.average_without_times`)
* C121: The comment in calculate_sampled_waveform says that the sampled points fall within the range of times, but samples start from zero: waveforms that start later, or end earlier, are refused. (`Waveforms.late_start_refused`)
* C123: add_signals, subtract_signals and shift_signal sample what they are given even when it is sampled; the times of a sampled waveform end one step short of the period, so each call shortens it. (`Waveforms.signals_drift`)
* C124: compress_waveform takes slopes below 1e-9 for flat and drops extremes there; it compares slopes of neighbours only, so a curve that bends by one percent per sample is replaced by one straight line. (`Waveforms.slow_bend_lost`)
* C125: calculate_derivative_waveform of a waveform with corners leaves out vertical edges: the derivative of a rectangular waveform is zero. (`Waveforms.jump_lost`)
* C126: calculate_max_volt_seconds takes the largest magnitude of the integral from the first point on, so the result changes by up to a factor of two with the start of the period; and it takes each interval at its first value, so that a voltage rising from zero between two corners has none. (`Waveforms.depends_on_start`)
* C127: create_waveform makes bipolar rectangular waveforms of a duty cycle above one half with times that go back, leaves out their offset, ignores negative skews, and rotates past the end for skews of more than a period. (`Waveforms.bipolar_times_go_back`)
* C128: calculate_offset gives zero for rectangular waveforms whatever their offset; the duty cycle of a secondary rectangular one is rounded to two decimals; dead time is counted as on from one half duty on. (`Waveforms.rectangular_offset_lost`)
* C130: try_guess_waveform_label compares the average with 1 in whatever unit, so the label depends on the unit; slow decays are labelled triangular and small ripples on a large direct current sinusoidal. (`Waveforms.label_depends_on_unit`)
* C131: A constant sampled waveform labelled rectangular is compressed to two points of which the third time is read. (`Waveforms.constant_rectangular_undefined`)
* C131: The average is taken from the corners and the root mean square from samples: a pulse between two samples has an average above its root mean square. (`Waveforms.rms_below_average`)
* C131: Processed data that are given keep their peaks, offset and duty cycle, also when a caller changed the waveform and asks for them again. (`Waveforms.given_kept`)
* C138: reconstruct_signal makes as many points as the setting when that is more than the harmonics need, power of two or not; calculate_harmonics_data then refuses the signal. (`Fft.odd_setting_refused`)
* C138: Amplitudes of harmonics have no sign and the first stands for the direct component: a signal with a negative mean is reconstructed with a positive one. (`Fft.sign_of_mean_lost`)
* C140: calculate_processed_data samples a waveform only if its number of points is not a power of two. The four corners create_waveform makes for unipolar triangular and for triangular with dead time are taken for four samples at equal steps: the direct component does not depend on the duty cycle, the distortion is zero. complete_excitation stores such processed data beside harmonics of the waveform sampled properly. (`Fft.corners_taken_as_samples`)
* C140: A waveform of two points has one harmonic; calculate_processed_data reads the frequency of the second. (`Fft.two_values_undefined`)
* C141: The voltage used for the energies is spread from the whole voltage at the first turn to zero at the last, while the start and end of each turn are spread in as many parts as there are turns; a turn is taken at the mean of its ends only in the middle. (`StrayCapacitance.center_is_mean_iff`)
* C142: Two layers without thickness have the permittivity of the second. (`StrayCapacitance.no_thickness_takes_second`)
* C143: A winding at zero volts given second has no capacitance through the core to the other, given first it has. (`StrayCapacitance.through_core_depends_on_order`)
* C145: The capacitance between two windings of different turns changes when they are listed in the other order. (`StrayCapacitance.order_of_windings_matters`)
* C145: The energy of a winding to the core is added to that of its turns, but dropped when none of its turns is next to another of them: interleaved windings on a core have no capacitance of their own. (`StrayCapacitance.spread_winding_loses_core`)
* C145: Two windings next to each other only at turns whose voltages add up to zero have no capacitance: the search starts from no potential, finds no energy and stops. (`StrayCapacitance.no_voltage_no_capacitance`)
* C147: The comment says C1 is the capacitance of the first winding; what is stored for (second, first) is a copy of that for (first, second). (`StrayCapacitance.tripole_not_swapped`)
* C148: The inner term is put in series only when it is above 1e-13, so the capacitance of slightly longer turns can be a third. (`StrayCapacitance.longer_turns_less_capacitance`)
* C148: The comment gives the square root of both capacitances multiplied as the value which does not change; it is more than that. (`StrayCapacitance.fixed_point_not_root`)
* C148: The term of a toroid to its core is less than the sum the comment derives it from, by (N - 1) / (N + 1): a third for two turns. The comment says it is approximate. (`StrayCapacitance.toroid_core_term`)
* C149: Where nothing is between wire and core the direction is left out instead of being infinite. (`StrayCapacitance.touching_is_less`)
* C150: Steinmetz' data in a variant other than `default` make that model be chosen, and it then refuses the material as without data, though data of another model are there. (`CoreLosses.variant_refused`)
* C150: The comment says all the variants are looked at, so that a material announced as one of a manufacturer is not refused; its coefficients are still read from the variant `default` alone, and it is refused. (`CoreLosses.variant_proprietary_refused`)
* C150: Losses by mass make the manufacturer's model be chosen, but if there are points by volume too they are not used, and the material is refused. (`CoreLosses.mass_hidden`)
* C151: A frequency between two ranges is refused, though the ones below and above all of them are served. (`CoreLosses.hole_witness`)
* C151: The lowest start is sought from 100 MHz down: if all the ranges start there or over, a frequency below them is refused. (`CoreLosses.radio_witness`)
* C152: Losses are not corrected by a negative polynomial of the temperature, but the flux density from losses by volume is, and is not a number. (`CoreLosses.flux_from_volumetric_fails`)
* C153: The search stops at coefficients of the same exponent, though of another factor: the losses at the frequency given are twice those asked for. (`CoreLosses.frequency_wrong_range`)
* C154: The offset is subtracted with its sign from a peak which is an absolute value: with a bias downwards the amplitude is too large by twice the bias. (`CoreLosses.amplitude_witness`)
* C154: The offset is also subtracted from the amplitude of a harmonic, which has none. (`CoreLosses.harmonic_offset_witness`)
* C155: ciGSE does not take the coefficients set for the model. (`CoreLosses.cigse_ignores_datum`)
* C155: Barg's model takes as plateau every point whose distance to the largest value, divided by that value, is under two hundredths: with a largest value below zero every point is. (`CoreLosses.plateau_below_zero`)
* C156: Out of three or more periods of n intervals n points are used, with n - 1 intervals. (`CoreLosses.last_interval_missing`)
* C157: The comment says the exemption of Roshen's model was wrong; it is gone from the losses of the core, and still there in those by volume. (`CoreLosses.roshen_disagrees`)
* C158: Only the processed data of the flux density are scaled by the areas: iGSE takes the swing from them and slopes from the waveform. (`CoreLosses.area_igse`)
* C158: Losses that are not a number, refused for other cores, are given for a semi-shielded drum. (`CoreLosses.semishielded_nan`)
* C159: Without quadratic coefficient the frequency for Micrometals is zero divided by zero. (`CoreLosses.micrometals_linear_nan`)
* C159: Losses are worked out at the amplitude, the frequency from losses at the peak. (`CoreLosses.magnetics_bias_fails`)
* C161: A range without points is dropped, and frequencies in it are refused afterwards. (`CoreLosses.empty_range_hole`)
* C162: Below half the flux density of the upper branch at the coercive force (some 60 mT for usual ferrites) the quadratic equation has no positive root and the branches are left where they are; each is then cut to the swing at its own fields, and values of different fields are subtracted: the losses drop by hundreds of times. (`CoreLosses.hysteresis_collapses`)
* C163: With bias the losses are corrected, and the losses by hysteresis and by eddy currents reported beside them are not. (`CoreLosses.components_short`)
* C163: The losses by volume asked for alone are those of a T 10/6/4 whatever the core, although losses by eddy currents are proportional to the area of its column. (`CoreLosses.ring_witness`)
* C164: The turns for an inductance are truncated (to none under one turn), and the losses are those of the inductance of those turns. (`CoreLosses.series_vanishes`)
* C164: Losses by loss factor without current divide by zero and convert the result to an integer. (`CoreLosses.factor_no_current`)
* C165: The differential mode has the resistance of the first winding alone; the tank of leakage of the wideband impedance, the same path, has those of both. (`Impedance.differential_one_winding`)
* C166: The permeability multiplies the inductance of core and gaps at permeability one: the inductance of a gapped core is overstated, by more than twenty times for a gap of a hundredth of the core of permeability 2000. (`Impedance.gapped_witness`)
* C166: With the fast model of capacitance, the tank of w windings has w times the capacitance and the self resonance that of one. (`Impedance.fast_resonance_high`)
* C166: The operating point with the temperature is built and not used. (`Impedance.resonance_without_temperature`)
* C167: A point of permittivity at zero frequency gives no number up to the next one, by its logarithm. (`Impedance.zero_frequency_undefined`)
* C168: Only the turns of the first winding are set while trying; the impedance is that of the others with the turns they had. (`Impedance.others_kept`)
* C169: Asked for no points, the sweeps of impedance and differential mode read an element of an empty vector. (`Sweeper.no_points`)
* C169: The comment says that flux density falls with the frequency at a fixed voltage; for one winding with current, the current is the magnetizing current at every frequency, and so the flux density is the same. (`Sweeper.flux_same`)
* C170: The area of flat conductors counts their number, and the part without current counts it again: two foils are refused with a negative area, or have less area than twice one. (`Wire.foils_witness`)
* C172: The key of filling factors of round wires lacks whether the air is counted, and that of outer diameters is the same: the answer is of the first one asked. (`Wire.filling_round_history`)
* C172: The key of filling factors of served litz lacks the number of layers. (`Wire.filling_served_history`)
* C172: The key of packing factors of insulated litz lacks the grade of its strands. (`Wire.packing_history`)
* C172: The maps of interpolators are never cleared, so outer diameters are those of the catalogue that was replaced. (`Wire.outer_stale`)
* C173: A negative number of servings is taken, and makes the bundle thinner. (`Wire.served_negative`)
* C174: The label has any temperature rating, and only 155 and 180 degrees are read. (`Wire.label_temperature_lost`)
* C174: Breakdown voltages above 1 kV are written with one decimal of kilovolts. (`Wire.label_voltage_rounded`)
* C174: Insulation of other than one to three layers has an empty label. (`Wire.label_layers_lost`)
* C174: A label of enamel without a grade reads the second piece of a text with one. (`Wire.label_enamel_undefined`)
* C175: A foil has an equivalent planar wire and a planar wire has no equivalent foil. (`Wire.equivalent_refused`)
* C175: The strands of equivalent litz are counted for the skin depth and are the closest of the catalogue, so the area is not kept, and there may be none. (`Wire.equivalent_area_fails`)
* C176: Cutting a foil keeps the conducting area stored before; cutting a planar wire updates it. (`Wire.foil_area_stale`)
* C177: `Bobbin::process_data` looks only at the sign of the area. A bobbin of family E without `e` nor `l2` has a window of negative width and height, whose product is positive: it is accepted. One without `s1` is accepted with a column of no thickness, although the comment at line 996 means to refuse missing dimensions. (`Bobbin.negative_window_accepted`)
* C178: `create_quick_bobbin` with a column thicker than the window of the core makes a window of no width and no area without a word (line 759), which `process_data` calls never a valid answer. With a negative thickness that makes a window over a metre, the dimensions of the core are kept, the thicknesses are declared zero and the width of the column still has the negative one. (`Bobbin.nothing_left_accepted`)
* C180: `load_interpolators` sorts with `std::sort` by one dimension and keeps the first of equal ones, so which filling factor stays among bobbins with the same width depends on the library. With no usable bobbin it reads the first of an empty vector. The splines of a thread are not built again when the catalogue is replaced by another one that is not empty. (`Bobbin.equal_widths_unspecified`)
* C181: `get_winding_window_sections_orientation` and `..._alignment` take the default of the shape of the first window whatever the window asked (lines 923, 938). `get_winding_window_coordinates` does not check its index, and a bobbin without processed description is dereferenced by the area, coordinates, dimensions and sections. (`Bobbin.default_of_first`)
* C182: `get_maximum_dimensions` answers zeros for a round window. The processors of E, ER, EL, P, U and EFD never write the depth of the column, which `get_maximum_dimensions` and others read; MAS.hpp is not in the repository, so whether it has an initial value is not known and the model takes it as undefined. (`Bobbin.extremes_undefined`)
* C183: The sweep stops when the inductance is over its requirement but not when it is under the minimum, and keeps the magnetic. (`Filters.Sweep.too_little_inductance_counterexample`)
* C184: The sweep of turns of the filter by losses is done once for each operating point but its state is declared before the loop: the second point starts where the first stopped, the caps of saturation of the first do not bind the turns of the second, and a point with nothing measured takes the last losses of the one before. (`Filters.Sweep.repeated_point_counterexample`)
* C186: The filters by current density only check the number of windings of the first operating point; a later one with fewer is read outside its vector. (`Filters.Gates.density_later_point_counterexample`)
* C188: `MagneticFilterEnergyStored` compares the running maximum with the requirement, so a first point with enough energy keeps a magnetic whose other points have not; and it writes a new output that loses the inductance another filter wrote. (`Filters.Gates.energy_order_counterexample`)
* C189: An empty list of impedances divides zero by zero: the magnetic is kept and its score is not a number. (`Filters.Gates.impedance_empty_counterexample`)
* C191: The search of turns for a minimum impedance gives up after five passes without measuring the turns it last reached. With an impedance that grows as the turns a hundred would do, and it stops at 94. (`Filters.Choke.choke_gives_up_counterexample`)
* C192: `get_patterns` cuts the patterns of a toroid at one less than its sides, and the vector holds at most six: at eight sides or more the iterators are beyond its end, which is undefined behaviour. (`Patterns.patterns_undefined_iff`)
* C192: Half of the orders of the sides are taken, as the other half are their reverses, but only from the order they appear in: if that is not increasing, orders are repeated after the last permutation or missing. (`Patterns.sides_uncovered_counterexample`)
* C193: The pattern is not checked against the windings: one of a winding that does not exist is read outside the vector when some winding has fewer turns than repetitions. (`Patterns.integrity_unchecked_counterexample`)
* C194: The adviser of coils and the filter by solid insulation overwrite the number of repetitions of the outer loop with what the check of a pattern leaves, so a winding with fewer turns than repetitions makes the patterns after the first be tried with one repetition. (`Patterns.not_all_tried_counterexample`)
* C195: The score of the filter by solid insulation is always zero, and foil and planar wires meet any requirement. (`Filters.Insulation.sheet_accepted_counterexample`)
* C197: The comment of the cache says that the decision is byte identical, but the number of gaps does not tell a core with residual gaps only from one that is ground: if the first is asked for, the second is rejected afterwards. (`Filters.Memo.fringing_history_counterexample`)
* C198: The flux density that is remembered for a material was computed with the frequency and temperature of an operating point, and is used for the others. (`Filters.Memo.area_product_order_counterexample`)
* C199: `Magnetic::get_maximum_dimensions` remembers its first answer, and neither `set_core`, `set_coil`, `from_json` nor the mutable references forget it: a magnetic asked once answers those dimensions for ever, and so does `fits`. (`Magnetic.stale_dimensions`)
* C200: `Coil::get_maximum_dimensions` takes how far a turn goes from the centre, half of what it needs, as a width, and compares it with whole widths: the wire outside a toroid is not counted. The depth adds what the bobbin is wider than deep, so a bobbin deeper than wide makes it smaller. (`Magnetic.ring_does_not_fit`)
* C201: The message of the refusal says that the rise is not reached below 1 MA, but nothing above 524288 A is tried. (`Magnetic.rated_refused_below_a_million`)
* C203: `==` of wires compares only what both give, so it is not transitive, and with both named only the names; `==` of magnetics does not read the gaps. (`Magnetic.sameWire_not_transitive`)
* C204: `from_json` of a magnetic leaves in place the core or coil of the object when the JSON has none. (`Magnetic.read_keeps_the_old`)
* C205: Scores are stored by reference: parts with the same reference all have the score of the last one. (`Advice.shared_reference_counterexample`)
* C206: When nothing is left after the second round, `get_advised_magnetic` calls itself with the gates relaxed, but on the parts that met them: the retry finds nothing. (`Advice.retry_finds_nothing`)
* C207: The streak of identical errors is reset by each filter that accepts, and not by a part that is rejected: errors reported as consecutive are not, and a catalogue all of whose parts fail behind an accepting filter is answered as empty. (`Advice.never_aborts_behind`)
* C208: `get_scorings` already multiplies by the weight, and `get_advised_magnetic` multiplies again: weights count squared. (`Advice.order_not_documented`)
* C209: Rejections by strictly required filters are not recorded as failed: their raw score, often 0, is normalised with the others, and counts as the best when less is better. (`Advice.relaxed_rejected_first`)
* C210: The default catalogue flow is documented as strictly required, but its operations are constructed without the flag, except for the turns ratios. (`Advice.default_flow_advises_rejected`)
* C212: `~CoreFilterSettingsRestorer` clears the catalogues, which throws when they are frozen; destructors are `noexcept`, so the process ends. A design that finds nothing with toroids enabled comes to it. (`Advice.Restore.nothing_found_terminates`)
* C213: For high voltages, suppression and the retry `get_advised_magnetic` clears the catalogues without looking at the scope, and the core adviser loads public shapes. (`Advice.Restore.scope_loses_inventory`)
* C214: `get_advised_magnetic` takes the application of the request only while the adviser's is power, and keeps it. (`Advice.Restore.application_sticks`)
* C215: The loop over cores of the retry without toroids does not break at the cap of candidates nor at the number of wound cores: each core left adds one more. (`Advice.Design.retry_overflows`)
* C216: `usedNumberSectionsAndMargin` is added to only when the cap of coils of the core is reached, after which it is not looked at again. (`Advice.Design.same_sections_twice`)
* C218: `score_magnetics` discards the verdict of the filters and does not look at strictly required ones; the remedy of the catalogue path (ABT #801) is not there. (`Advice.Design.rejected_design_first`)
* C219: Nothing is caught around the filters in `score_magnetics`, and `normalize_scoring` throws for a NaN. (`Advice.Design.one_bad_design_loses_all`)
* C220: A strictly required filter that throws is ignored: the design is answered unjudged. (So the comment inside the loop; the one at the top says that only designs meeting the constraint are returned.) (`Advice.Fast.unjudged_answered`)
* C221: The cap of candidates grows with the results asked for beyond ten, and is applied before ferrite toroids are left out. (`Advice.Fast.starved`)
* C222: Three equal windings are never combined in parallel: what is checked not to be parallel already is the second of the pair, twice, and combinations come behind single windings. (`Combinator.no_three_in_parallel`)
* C223: The restriction of tapped windings is only looked at for the first of two, and applies to the partner but not to series or parallel. (`Combinator.tapped_in_parallel`)
* C224: Virtual magnetics are named after the reference of the magnetic, read without looking whether there is manufacturer information, although a line before does. (`Combinator.labelled_spec`)
* C225: The name of a virtual winding is the list of its windings, the same in series and in parallel. (`Combinator.series_found_as_parallel`)
* C226: Virtual magnetics are compared by the flattened list of windings, so that one grouping hides others. (`Combinator.grouping_lost`)
* C227: Windings in series are given a part of the current and the whole voltage, those in parallel the whole current: swapped with respect to the circuit. (`Combinator.series_loses`)
* C228: An unused winding is given a made up sinusoid for current and voltage, and the frequency for it is read out of an empty list if it is the first winding. (`Combinator.devirtualize_spec`)
* C229: Without operating points the turns for a minimum are rounded and may stay below it; with one, a hundred turns are added at most and what is reached is answered. (`Magnetizing.no_point_below_minimum`)
* C230: The iteration stops after six steps and only the neighbours are tried then. (`Magnetizing.nominal_missed`)
* C231: The gap is rounded to four decimals of a metre by default, that is to a tenth of a millimetre: smaller ones become the residual gap. Nor is it told when the search did not reach. (`Magnetizing.Gap.rounded_away`)
* C232: `excitation` is a copy of before the magnetizing current was set, so the correction for the bias is only made when it was given. (`Magnetizing.Gap.bias_ignored`)
* C233: After fifteen gaps the last one, which was not even tried, is answered, as a comment says. (`Magnetizing.Saturation.saturation_missed`)
* C234: When the flux density is above the limit by a twentieth, turns and gap are recalculated with the formulas they came from: the same gap, and at least as many turns, so the flux density stays or grows. (`Magnetizing.Saturation.correction_does_not_help`)
* C235: Without area or limit the turns are none in one function and one in the other. (`Magnetizing.Saturation.degenerate`)
* C237: The loops are written to run until reluctance and inductance change by less than a tenth, but both timeouts are one, so there is one round. (`Magnetizing.Bias.not_the_true_one`)
* C238: The induced voltage and the magnetizing current are written into the operating point, and the presence of a voltage chooses another source the next time. With voltages alone and five or more excitations the call is undefined. (`Magnetizing.Bias.asked_twice`)
* C240: A first winding without a voltage, or a winding with fewer points than the first, is read past what is there. (`Excitation.first_without_voltage`)
* C241: Two windings with 100 and 95 are a common mode choke, with 95 and 100 they are not. (`Excitation.choke_depends_on_order`)
* C242: With the label of a flyback or a unipolar triangle the magnetizing current does not depend on the voltage or the inductance; a current that is not processed is undefined. (`Excitation.ramp_from_current`)
* C244: A current of zero amperes adds half of the largest number; a negative current adds a positive offset. (`Excitation.zero_current_offset`)
* C245: Four points are a power of two, so analytical waveforms of four points are added whatever their times. (`Excitation.choke_ignores_times`)
* C246: A duty cycle of one divides by zero. (`Excitation.reflect_full_duty`)
* C247: A primary with only a current beside a winding with only a voltage reads a voltage that is not there. (`Excitation.current_beside_voltage_undefined`)
* C248: An operating point without windings is read at zero. (`Excitation.no_windings_undefined`)
* C251: `set_reluctance_model_name` sets a field that is never read, so asking for a model has no effect. (`Simulator.reluctance_witness`)
* C252: A secondary without an rms value is left out of the output voltages, and the next takes its place. (`Simulator.Sheet.outputs_shift`)
* C254: Currents alone are accepted by the check of integrity and refused by the completion; and the magnetizing current of a secondary is worked out with the inductance referred to the primary. (`Autocomplete.secondary_current_of_primary_inductance`)
* C256: Of a core of several materials, `magnetic_autocomplete` keeps the first alone. (`Autocomplete.Magnetic.second_grade_lost`)
* C257: The name given to a winding without one can be that of another. (`Autocomplete.Magnetic.names_repeated`)
* C258: The orientations and alignments in the configuration are overwritten (`to_json`) instead of read. (`Autocomplete.Magnetic.asked_orientation_lost`)
* C260: A bobbin with a functional description alone is read as if it had a processed one. (`Autocomplete.Magnetic.unprocessed_bobbin`)
* C261: `mas_autocomplete` and `inputs_autocomplete` put in magnetizing currents without the bias of the current. (`Autocomplete.bias_lost_example`)
* C262: The model of Partridge answers gaps of more than four times the distance to the yoke with a factor below one, until it is zero. (`Reluctance.partridge_raises`)
* C263: The models of the effective area and length answer less reluctance for longer gaps, once these are longer than the column is wide. (`Reluctance.longer_gap_less_reluctance`)
* C264: The model of Muehlethaler answers what is not a number for a gap of length zero. (`Reluctance.muehlethaler_no_length`)
* C265: The model of Muehlethaler reports in round columns the square root of the factor (flagged in the source). (`Reluctance.muehlethaler_round_disagrees`)
* C266: The model of Muehlethaler reads the area of a gap that has none. (`Reluctance.muehlethaler_without_area`)
* C266: The models of Stenglein and Muehlethaler answer negative reluctances. (`Reluctance.stenglein_negative`)
* C267: The energy of gaps is answered for the saturation of another core, or 0.4 T, when asked with a permeability. (`Reluctance.energy_depends_on_history`)
* C268: The answer for a core is always named Default. (`Reluctance.core_answer_not_named`)
* C269: A gap of the length that is answered for an energy stores less than that energy, since the fringing is that of the length that it had. (`Reluctance.length_by_energy_stores_other`)
* C269: `calculate_core_maximum_magnetic_energy` uses the proportion of the saturation for the core also when the whole is asked for. (`Reluctance.whole_saturation_not_used`)
* C274: A column without a name before the last name takes no values: they go to the columns that follow. (`Reader.unnamed_shifts`)
* C275: Numbers with a decimal comma are cut at the comma without an error. (`Reader.decimal_comma`)
* C277: Values missing in the time and in a signal, in different rows, shift samples to times of other rows. (`Reader.missing_shifts`)
* C279: The error for a recording that is too short is dead code in exact arithmetic; all of a short recording is given as a period. (`Reader.short_recording`)
* C280: A reader uses the window of the first frequency it was asked for whatever is asked later. (`Reader.asked_before_counterexample`)
* C281: A label of one letter counts anywhere in a name: Voltage b is of winding a. (`Reader.letter_counterexample`)
* C282: V(mag) is a magnetizing current, Voltage Isolated a current and V(Timer) a time. (`Reader.voltage_mistaken_counterexample`)
* C283: After a question with names the columns that were not named are gone, and a later question for them is answered with an empty excitation. (`Reader.columns_gone_counterexample`)
* C284: Naming a signal and a time that have no values takes the last of no times. (`Reader.named_undefined`)
* C285: A square wave of few samples is taken for a current. (`Reader.square_counterexample`)
* C289: Rectangular wires are advised with one parallel (and two) whatever the current. (`WireAdvice.rectangular_over_density`)
* C289: A winding without current is advised zero parallels, ahead of everything else of the same wire. (`WireAdvice.no_current_no_parallels`)
* C292: The search of planar wires does not reset the reported proportion. (`WireAdvice.planar_remembers`)
* C293: Sections without a coordinate system are cartesian for areas but not for rectangular wires. (`WireAdvice.no_coordinates_no_rectangular`)
* C295: All turns must fit side by side in one section before the candidates without parallels are looked at. (`WireAdvice.planar_sections_ignored`)
* C296: Below about -234 C the square root of a negative resistivity is converted to a number of strands. (`WireAdvice.synthesize_cold`)
* C297: A rectangular wire without conducting area makes the whole search throw, while other types are given theirs. (`WireAdvice.rectangular_needs_area`)
* C297: At frequency zero the proximity filter divides by zero and the search throws. (`WireAdvice.direct_current_throws`)
* C297: A current that is not processed is dereferenced when no wire is looked at. (`WireAdvice.not_processed`)
* C299: Beyond saturation the paths have crossed and are moved by the absolute gap, which doubles it. (`Hysteresis.beyond_saturation_crosses`)
* C299: With little remanence for the coercive force the paths of a loop cross at the middle. (`Hysteresis.low_remanence_crosses`)
* C300: The loop for 0.3 T of a ferrite has at most 0.12 T. (`Hysteresis.flux_not_reached`)
* C301: The slope answered is that of the first piece of the upper path, although the comment says the average slope of the loop. (`Hysteresis.not_average_slope`)
* C301: 0.1 T and 0.2 T have the same amplitude permeability. (`Hysteresis.flux_same_amplitude`)
* C303: The largest of ambient temperatures below zero is answered as 0, and so are direct currents that flow backwards. (`Maxima.below_zero`)
* C304: A material without losses is said to be for power and not accepted for it, until that is written down. (`Materials.guess_not_accepted`)
* C304: A material tagged for suppression without complex permeability is said to be for suppression and not accepted for it. (`Materials.tag_not_accepted`)
* C305: A preferred maker with materials, none of them suitable, hides the suitable ones of others. (`Materials.preferred_hides`)
* C306: The direct current in amperes is taken for an offset of flux density in teslas and may reverse the ranking. (`Materials.amperes_as_teslas`)
* C306: One material whose losses are not a number makes the comparison of the sort invalid, which is undefined behaviour. (`Materials.nan_undefined`)
* C307: A ferrite of the preferred maker of powder is tried as powder. (`Materials.ferrite_as_powder`)
* C308: A direct current that flows backwards does not bring powder materials in, however large. (`Materials.backwards_no_powder`)
* C310: The rise of the TDK model is less than a thirtieth of that of the Maniktala model, which is the default. (`CoreTemp.tdk_far_below`)
* C311: Scores are kept by reference alone; magnetics without reference share one. (`CoreTemp.shared_reference`)
* C311: Scores kept for a magnetic are used for it with other inputs. (`CoreTemp.stale_inputs`)
* C312: The products by temperature rise multiply by the temperature. (`CoreTemp.ambient_reverses`)
* C313: The filter of maximum dimensions throws if one of the three is not given, although whether a magnetic fits is answered then. (`CoreTemp.height_alone`)
* C315: The losses of the operating points are with different turns. (`LossSweep.mixed_turns`)
* C315: The order of the operating points changes the score. (`LossSweep.order_matters`)
* C315: A magnetic that saturates at the second operating point is accepted with the losses of the first. (`LossSweep.saturated_accepted`)
* C315: The turns that are left saturate at the first operating point. (`LossSweep.saturates_before`)
* C316: Turns with too low an inductance are accepted. (`LossSweep.low_inductance`)
* C316: The turns of the other windings are not changed with those of the first. (`LossSweep.ratio_lost`)
* C317: The iterations left are not set again for each operating point and wrap around. (`LossSweep.limit_wraps`)
* C319: Cores of a material that does not suit the application, or of a type the user left out, are offered as stacks. (`Dataset.stacks_refused_alone`)
* C320: An advice short of results leaves the cores of the catalogue as stacks of four, named so. (`Dataset.starved_restacks`)
* C320: The same advice asked twice has other candidates. (`Dataset.repeated_advice_differs`)
* C323: When a step of the search fails after another succeeded, the turns are of the one that failed and the gap of the other. (`Dataset.regap_torn`)
* C326: The parallels of the dummy coil are sized for the first operating point only. (`Dataset.dummy_dense_later`)
* C330: One material without permeability, saturation or resistivity data makes the search fail for every reference it fits. (`MaterialRef.one_unknown_aborts`)
* C332: The report of scores lists materials of earlier calls. (`MaterialRef.report_of_older_calls`)
* C333: A material excluded for unknown data swaps two that are offered. (`MaterialRef.excluded_reorders`)
* C334: A material without thicknesses has a thinnest tape of 0 by one query and of DBL_MAX by the other. (`Strips.thinner_disagree`)
* C338: Insulation of a chosen thickness is reported with the thickness of the default tape. (`Strips.custom_misreported`)
* C339: Without margin tape the estimate puts three layers in a section as thick as one. (`Strips.simple_overflows`)
* C342: Layers are counted with the thickest tape of the material and built with the thinnest, so they fall short of the distance through insulation. (`Strips.layers_short`)
* C346: The filling factors of a section with layers of both orientations depend on their order. (`Fitting.order_matters`)
* C348: The sections of both windows of a two-window bobbin are measured against the first window, so that a coil accepted is reported as not fitting. (`Fitting.two_windows_misreported`)
* C348: A coil over its window by less than half a millionth is accepted and reported as not fitting. (`Fitting.barely_misreported`)
* C349: A coil is reported as fitting while it overflows across the stacking; the header says false when any of the factors overflows its dimension. (`Fitting.overflow_reported_fitting`)
* C353: On a bobbin with one window the window a winding asks for is ignored, even if it does not exist. (`Columns.bad_window_ignored`)
* C354: A winding assigned to two columns is placed in both and one assigned to none is left out, without an error. (`Columns.assigned_twice`)
* C359: When no section is moved, undoing the placement returns before marking it as undone, so turns wound again get no second crossings. (`Columns.crossings_lost`)
* C360: Two groups around lateral columns in one region are placed over each other when a winding is around the main column; without it they are refused. (`Columns.laterals_overlap`)
* C364: Equalising three sections of a rectangular window leaves the first pair short of the distance of their interface, although the comment says that the path of each edge is conserved. (`Margins.edges_short`)
* C365: The last and the first section of a toroid of three windings get no margin for the distance between them. (`Margins.closing_gap_open`)
* C366: With margins equalised, which is the default, each winding of the same coil raises its margins. (`Margins.rewinding_grows`)
* C368: Margins preloaded into a coil that was wound are appended to those it has, so that they are used for sections that may not exist. (`Margins.preloaded_elsewhere`)
* C369: The snapshot of margins is not restored when winding throws, as for planar wires with real winding geometry. (`Margins.thrown_keeps`)
* C370: A margin between two sections of a toroid removes the insulation of all pairs of sections of the same windings, with margins or not. (`Margins.removed_for_others`)
* C370: The insulation between the last and the first section of a toroid is removed on account of a distance that no margin gives. (`Margins.removed_at_closing`)
* C372: Turns in excess are taken back from all rings in turn, also from those that hold fewer than the last, so that a ring with blocked slots may end with a negative number of turns. (`Rings.negative_turns`)
* C376: A section that asks for more layers than its turns need makes the code read a vector beyond its end. (`Rings.asked_beyond`)
* C376: A section in whose average layer no turn fits is cut to the layers that fit, and the turns of the others are lost. (`Rings.turns_lost`)
* C377: Sections of a toroid beside each other are not given room for the insulation between layers. (`Rings.layers_outside`)
* C380: A turn left of the axis (as turns of windows left of it are placed) is given the surface of a turn of a thousandth of a millimetre of radius: the code takes the coordinate for the radius and clamps it. (`Faces.left_of_axis`)
* C381: The faces of turns of toroids are computed from half of the circle around the axis of the toroid, not from the length of the turn, which goes along the section of the core. (`Faces.toroid_surface_wrong`)
* C383: Turns within a tenth of a segment of a border cover both segments, so that a core is less exposed than it is. (`Faces.counted_twice`)
* C383: Turns of a second layer cover the core again where those of the first do. (`Faces.stacked_turns`)
* C385: Air said not to move is taken for still air, which cools more than air that moves slowly. (`Faces.slow_below_stopped`)
* C386: Flat turns that touch with their narrow sides are not connected, for half of the least dimension is taken from the distance for each. (`Contacts.flat_apart`)
* C389: The number of a turn within its winding is used as its position in the coil, so that insulation between other turns is looked at. (`Contacts.wrong_insulation`)
* C390: An exception of the search for insulation is caught, and the turns are said to be connected then, but the same search is made again and throws. (`Contacts.unknown_insulation`)
* C391: Whether insulation is in the way looks at the first turn only. (`Contacts.between_order`)
* C392: Of turns of a toroid on both sides of the angle zero, insulation between zero and the second is not found. (`Contacts.tapes_round_missed`)
* C395: The filter by temperature averages the losses of all operating points, so a point above the limit is hidden by cooler ones. (`Costs.mean_hides`)
* C395: Only the ambient temperature of the last operating point counts, so the order of points decides. (`Costs.order_matters`)
* C402: Outputs without inductance are skipped when the inductances are collected, and so those after them are used for earlier points. (`Loading.shifted`)
* C404: Data of core resistivity that do not rise are given to the spline as they are, and data of one temperature as a single point. (`Resistivity.falling_data`)
* C406: Groups are found from the list of each winding alone, so a chain of windings wound together is split into groups. (`CoilAdvice.chain_split`)
* C408: Each winding of a group wound together is checked against its own part of the section, so a group that fits is refused. (`CoilAdvice.group_refused`)
* C410: Wires are copied from the first partner in one pass, so three windings that name each other get different wires. (`CoilAdvice.ring_differs`)
* C411: Asked for zero coils, with a lateral candidate, the last element of an empty vector is used. (`CoilAdvice.none_undefined`)
* C413: The pattern asked for does not change the planar stack. (`CoilAdvice.pattern_unused`)
* C413: A winding with parallels gets a layer for each, above the maximum set. (`CoilAdvice.parallels_over`)
* C413: A winding can be left without any layer. (`CoilAdvice.no_layer`)
* C415: A constraint on the type of wire makes the core adviser give nothing where without it cores of the other catalogue are given. (`CoreModes.wire_constraint_changes`)
* C415: The constraint on the type of material does nothing for standard shapes (a comment at lines 183-187 defers it), and no constraint does for custom ones. (`CoreModes.material_ignored`)
* C420: The filter by number of turns scores a core that is not processed by its turns alone, and processed ones by turns times metres, so the former score far worse. (`Filters.Gates.unprocessed_turns`)
* C423: Scores are normalised over all coils, also those that a filter rejects, so that a rejected coil may change which valid one is the best. (`CoilScores.rejected_decides`)
* C425: The comment and the message of the exception say time-averaged, but voltage and current with as many points are averaged over their points, whatever their times: one that is on nine tenths of the period counts as one half. (`PowerMean.not_over_time`)
* C428: The filters by losses and volume use only the score of the filter by losses, which is zero for a component with other windings than excitations, so that such a component is accepted with the least score there is. (`LossScore.mismatch_best`)
* C430: The share of an image is (permeability - cells) / (permeability + cells), which for a permeability below the number of cells is negative: with a mirroring dimension of two a core with the permeability of air has images. (`Images.air_images`)
* C435: The depth of a conductor below its face is 0.01 times the wide size and 0.66 times the thin one, which for a rectangular wire hardly wider than high is more than half of the width: the conductor labelled right is then left of that labelled left, and the field is chosen by the labels. (`FlatMesh.right_is_left`)
* C436: The mesh takes for c the wide size of the wire and for h the thin one; the field takes the height of rectangular and planar wires for c and the width for h, and the other way about for foils, and has no limit for lambda. (`FlatMesh.assumed_iff, FlatMesh.other_depth`)
* C438: The grid of a toroid divides its width by the number of points for the area of a cell, but spaces the points by one less. (`Grid.toroid_edges`)
* C440: Of planar wires the request to leave out points inside turns is not read: with turns ignored they are kept. No caller in the library asks for both. (`Grid.planar_inside`)
* C441: The selection is repeated with three times the threshold while it has more harmonics than the first winding has amplitudes; zero stays zero, so that the call never returns and the stack overflows. (`MeshHarmonics.never_ends`)
* C444: The field of a conductor with a rotation is turned by its angle whatever its wire, but the distance is turned back only for flat wires: the field of a round turn of a toroid that is rotated by a right angle points along the way from the wire instead of around it. Toroids give their points the rotation of the turn, and use this model when the one of Albach is chosen. (`LineField.rotation_matters`)
* C448: The half turn added to the arc tangent nearer to the middle of the edge than half the length of the gap is positive on both sides of it: for points to the left of the edge, as all those of the window are for a lateral gap, the axial field jumps there by 1.8 times the field of the gap and turns round. (`Fringing.axial_left`)
