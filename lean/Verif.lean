import Verif.Adviser.Props
import Verif.Cache.Props
import Verif.Catalog.Props
import Verif.Catalog.Loading
import Verif.CrossRef.Props
import Verif.Closest.Props
import Verif.Collisions.Props
import Verif.Datasheet.Props
import Verif.EnumJson.Props
import Verif.Harmonics.Props
import Verif.Insulation.Props
import Verif.LibCtx.Props
import Verif.Logger.Props
import Verif.Lookups.Props
import Verif.Migration.Props
import Verif.NumberTurns.Props
import Verif.Pattern.Props
import Verif.Requirements.Props
import Verif.Sampling.Props
import Verif.Scoring.Props
import Verif.SectionInterface.Props
import Verif.Settings.Props
import Verif.Standards.Cover
import Verif.Standards.Props
import Verif.Text.Props
import Verif.WireByDim.Props
import Verif.WireRequirements.Props
import Verif.Winding.Props
import Verif.Winding.RoundProps
import Verif.Winding.LayerProps
import Verif.Winding.LayerFitProps
import Verif.Winding.LayerStackProps
import Verif.Winding.TurnProps
import Verif.Winding.TurnPlaceProps
import Verif.Winding.CoilProps
import Verif.Winding.OrderProps
import Verif.Permeability.Model
import Verif.Permeability.Lemmas
import Verif.Permeability.CurveLemmas
import Verif.Permeability.AnswerLemmas
import Verif.Permeability.Props
import Verif.WoundWith.Props
import Verif.WindingLosses.Props
import Verif.WindingLosses.ConnectionProps
import Verif.WindingLosses.SafeProps
import Verif.WindingLosses.CacheProps
import Verif.Names.Props
import Verif.Names.BeginProps
import Verif.Network.Props
import Verif.Gapping.PassProps
import Verif.CoreData.Props
import Verif.WoundWith.AlikeProps
import Verif.Permeability.LossProps
import Verif.Winding.TurnOrderProps
import Verif.Inductance.Props
import Verif.Thermal.Props
import Verif.Thermal.SolverProps
import Verif.Thermal.CoolingProps
import Verif.Waveforms.Props
import Verif.Waveforms.SampleProps
import Verif.Waveforms.CompressProps
import Verif.Waveforms.CalculusProps
import Verif.Waveforms.VoltSecondsProps
import Verif.Waveforms.ShapeProps
import Verif.Waveforms.ProcessProps
import Verif.Contacts.Model
import Verif.Contacts.Props
import Verif.Faces.Model
import Verif.Faces.Props
import Verif.Fft.Model
import Verif.Fft.Bits
import Verif.Fft.Stages
import Verif.Fft.Exp
import Verif.Fft.Spec
import Verif.Fft.Dft
import Verif.Fft.Lemmas
import Verif.Fft.Props
import Verif.Fft.HarmonicsProps
import Verif.Fft.SignalProps
import Verif.StrayCapacitance.Model
import Verif.StrayCapacitance.VoltageProps
import Verif.StrayCapacitance.CoreProps
import Verif.StrayCapacitance.Lemmas
import Verif.StrayCapacitance.WindingProps
import Verif.StrayCapacitance.StaticProps
import Verif.StrayCapacitance.NetworkProps
import Verif.StrayCapacitance.LadderProps
import Verif.StrayCapacitance.TurnToCore
import Verif.CoreLosses.SelectProps
import Verif.CoreLosses.SteinmetzProps
import Verif.CoreLosses.PointsProps
import Verif.CoreLosses.WaveProps
import Verif.CoreLosses.BiasProps
import Verif.CoreLosses.MakerProps
import Verif.CoreLosses.SearchProps
import Verif.CoreLosses.FitProps
import Verif.CoreLosses.RoshenProps
import Verif.CoreLosses.SeriesProps
import Verif.Impedance.Props
import Verif.Impedance.AttenuationProps
import Verif.Impedance.TurnsProps
import Verif.Sweeper.Props
import Verif.Wire.Model
import Verif.Wire.AreaProps
import Verif.Wire.Catalogue
import Verif.Wire.CatalogueProps
import Verif.Wire.Label
import Verif.Wire.LabelProps
import Verif.Wire.Bundle
import Verif.Wire.BundleProps
import Verif.Bobbin.Model
import Verif.Bobbin.ProcessProps
import Verif.Bobbin.QuickProps
import Verif.Bobbin.CatalogueProps
import Verif.Bobbin.QueryProps
import Verif.Filters.Basic
import Verif.Filters.Sweep
import Verif.Filters.SweepProps
import Verif.Filters.Gates
import Verif.Filters.GateProps
import Verif.Filters.ScoreProps
import Verif.Filters.Choke
import Verif.Filters.ChokeProps
import Verif.Patterns.Model
import Verif.Patterns.Lemmas
import Verif.Patterns.Props
import Verif.Filters.Insulation
import Verif.Filters.InsulationProps
import Verif.Filters.Memo
import Verif.Filters.MemoProps
import Verif.Magnetic.Model
import Verif.Magnetic.Props
import Verif.Advice.Catalogue
import Verif.Advice.CatalogueProps
import Verif.Advice.Restore
import Verif.Advice.RestoreProps
import Verif.Advice.Design
import Verif.Advice.DesignProps
import Verif.Advice.Fast
import Verif.Advice.FastProps
import Verif.Combinator.Model
import Verif.Combinator.Props
import Verif.Magnetizing.Turns
import Verif.Magnetizing.TurnsProps
import Verif.Magnetizing.Gap
import Verif.Magnetizing.GapProps
import Verif.Magnetizing.Saturation
import Verif.Magnetizing.SaturationProps
import Verif.Magnetizing.Drum
import Verif.Magnetizing.DrumProps
import Verif.Magnetizing.Bias
import Verif.Magnetizing.BiasProps
import Verif.Excitation.Frequency
import Verif.Excitation.FrequencyProps
import Verif.Excitation.Signals
import Verif.Excitation.SignalsProps
import Verif.Excitation.Current
import Verif.Excitation.CurrentProps
import Verif.Excitation.ChokeProps
import Verif.Excitation.Integrity
import Verif.Excitation.IntegrityProps
import Verif.Excitation.Process
import Verif.Excitation.ProcessProps
import Verif.Simulator.Model
import Verif.Simulator.Props
import Verif.Simulator.Sheet
import Verif.Simulator.SheetProps
import Verif.Autocomplete.Inputs
import Verif.Autocomplete.InputsProps
import Verif.Autocomplete.Magnetic
import Verif.Autocomplete.MagneticProps
import Verif.Autocomplete.Mas
import Verif.Autocomplete.MasProps
import Verif.Reluctance.Model
import Verif.Reluctance.Lemmas
import Verif.Reluctance.Props
import Verif.Reluctance.LengthProps
import Verif.Reluctance.EnergyProps
import Verif.Reader.Text
import Verif.Reader.TextProps
import Verif.Reader.RowProps
import Verif.Reader.Model
import Verif.Reader.PeriodProps
import Verif.Reader.WindowProps
import Verif.Reader.KindProps
import Verif.Reader.WindingProps
import Verif.Reader.PointProps
import Verif.Reader.TwiceProps
import Verif.WireAdvice.Model
import Verif.WireAdvice.Lemmas
import Verif.WireAdvice.Spec
import Verif.WireAdvice.ShareProps
import Verif.WireAdvice.RankProps
import Verif.WireAdvice.AdviceProps
import Verif.WireAdvice.CandProps
import Verif.WireAdvice.OrderProps
import Verif.WireAdvice.PlanarProps
import Verif.WireAdvice.WitnessProps
import Verif.Hysteresis.Model
import Verif.Hysteresis.Lemmas
import Verif.Hysteresis.Props
import Verif.Maxima.Model
import Verif.Maxima.Props
import Verif.Materials.Model
import Verif.Materials.Props
import Verif.CoreTemp.Model
import Verif.CoreTemp.Props
import Verif.LossSweep.Model
import Verif.LossSweep.Props
import Verif.Dataset.Model
import Verif.Dataset.Seed
import Verif.Dataset.Lemmas
import Verif.Dataset.Props
import Verif.Dataset.SeedProps
import Verif.Dataset.Custom
import Verif.Dataset.CustomProps
import Verif.MaterialRef.Model
import Verif.MaterialRef.Spec
import Verif.MaterialRef.Lemmas
import Verif.MaterialRef.Steps
import Verif.MaterialRef.Eval
import Verif.MaterialRef.Props
import Verif.Strips.Model
import Verif.Strips.Props
import Verif.Fitting.Model
import Verif.Fitting.Props
import Verif.Columns.Model
import Verif.Columns.Props
import Verif.Margins.Model
import Verif.Margins.Props
import Verif.Rings.Model
import Verif.Rings.Lemmas
import Verif.Rings.Props
import Verif.Costs.Props
import Verif.Loading.Props
import Verif.Resistivity.Props
import Verif.CoilAdvice.Props
import Verif.CoilAdvice.Stack
import Verif.CoreModes.Props
import Verif.CoilScores.Props
import Verif.PowerMean.Props
import Verif.LossScore.Props
import Verif.Images.Props
import Verif.FlatMesh.Props
import Verif.Grid.Props
import Verif.MeshHarmonics.Props
import Verif.LineField.Props
import Verif.GapWire.Props
import Verif.Fringing.Props
