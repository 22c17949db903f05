import Verif.Props.Streams
import Verif.Props.Bits
import Verif.Props.Helpers
import Verif.Props.Causal
import Verif.Props.Psk
import Verif.Props.Hadamard
import Verif.Props.Bch
import Verif.Props.Cdma
import Verif.Props.Fh
import Verif.Props.Fsk
import Verif.Props.Chaos
import Verif.Props.Py
import Verif.Props.Ofdm
import Verif.Props.FhOfdm
import Verif.Props.Bpf
import Verif.Props.Ssca
import Verif.Props.Ieee
import Verif.Props.IeeeRadio
import Verif.Props.IeeeChaos
import Verif.Props.IeeeOfdm
import Verif.Props.IeeeFh
import Verif.Props.IeeeFsk
import Verif.Props.Costas
import Verif.Props.PyOfdm
import Verif.Props.IeeeCdma
import Verif.Props.Coded
import Verif.Props.Receivers
import Verif.Props.Live
import Verif.Props.Multipath
import Verif.Props.OfdmRx
import Verif.Props.Energy
import Verif.Props.Users
import Verif.Props.Fading
import Verif.Props.Interop
import Verif.Props.Offset
import Verif.Props.Fdm
import Verif.Props.Timing
import Verif.Props.IeeeRx
import Verif.Model.KomPy
import Verif.Lemmas.KomPy
import Verif.Props.KomPy
import Verif.Props.KomPyUtil
import Verif.Props.ChaosRx
import Verif.Props.Frames
import Verif.Props.KomPySsca
import Verif.Props.KomPyMisc
import Verif.Spec.Gauss
import Verif.Lemmas.Gauss
import Verif.Lemmas.Flips
import Verif.Lemmas.GaussRx
import Verif.Lemmas.Erfc
import Verif.Lemmas.Duo
import Verif.Lemmas.GaussEnd
import Verif.Props.Gauss
import Verif.Lemmas.GaussEnergy
import Verif.Props.NoiseEnergy
import Verif.Props.SscaOdd
import Verif.Lemmas.Memoryless
import Verif.Lemmas.Rayleigh
import Verif.Lemmas.FskNoise
import Verif.Props.GaussFsk
import Verif.Lemmas.Hoeffding
import Verif.Lemmas.ChaosNoise
import Verif.Props.GaussRate
import Verif.Props.GaussChaos
import Verif.Lemmas.EnergyClt
import Verif.Props.EnergyCurve
import Verif.Lemmas.Driven
import Verif.Lemmas.IntPoly
import Verif.Lemmas.ErfPoly
import Verif.Lemmas.ErfAccuracy
import Verif.Props.ErfAccuracy
import Verif.Spec.Carriers
import Verif.Lemmas.OfdmNoise
import Verif.Props.GaussOfdm
import Verif.Lemmas.ErfcConvex
import Verif.Props.GaussFloor
import Verif.Lemmas.OfdmAny
import Verif.Props.OfdmAny
import Verif.Model.KomPyBer
import Verif.Props.KomPyBer
import Verif.Lemmas.Radiometer
import Verif.Props.Radiometer
import Verif.Lemmas.Bayes
import Verif.Props.Optimal
import Verif.Model.KomPyWillie
import Verif.Lemmas.Willie
import Verif.Props.Willie
import Verif.F64.Spread
import Verif.Lemmas.FhOverflow
import Verif.Props.FhOverflow
import Verif.Model.KomPyLambdas
import Verif.Lemmas.KomPyLambdas
import Verif.Props.KomPyLambdas
import Verif.Spec.Margin
import Verif.Lemmas.GaussRec
import Verif.Props.SharedNoise
import Verif.Spec.Roc
import Verif.Model.KomPyRoc
import Verif.Lemmas.Roc
import Verif.Lemmas.RocReadings
import Verif.Props.Roc
import Verif.Spec.Bad
import Verif.Lemmas.Nan
import Verif.Props.Bad
import Verif.Model.Billiam
import Verif.Lemmas.Billiam
import Verif.Props.Billiam
import Verif.Lemmas.CdmaRx
import Verif.Spec.Shared
import Verif.Props.Shared
import Verif.Model.Eb
import Verif.Props.Eb
import Verif.Lemmas.IeeeRxFsk
import Verif.Props.IeeeRx2
import Verif.Lemmas.FskTones
import Verif.Props.FskCycles
import Verif.Lemmas.WalshCos
import Verif.Props.ManyUsers
import Verif.Props.IeeeManyUsers
import Verif.Props.IeeeBer
import Verif.Props.CodedCut
import Verif.Props.Laws
import Verif.Props.UnitTests
import Verif.Props.UnitChecks
import Verif.Lemmas.IeeeOfdmPass
import Verif.Props.IeeeOfdmPass
import Verif.Lemmas.IeeeBpf
import Verif.Props.IeeeBpf
import Verif.Lemmas.BpfLeak
import Verif.Props.BpfLeak
import Verif.Spec.Bins
import Verif.Lemmas.BpfFront
import Verif.Props.BpfFront
import Verif.Lemmas.BpfNoise
import Verif.Props.BpfNoise
import Verif.Spec.Band
import Verif.Lemmas.CodedNoise
import Verif.Props.CodedNoise
import Verif.Spec.Mixing
import Verif.Props.Mixing
import Verif.Lemmas.PassNoise
import Verif.Props.PassNoise
import Verif.Props.IeeeFront
import Verif.Lemmas.IeeeErf
import Verif.Props.IeeeErf
import Verif.Lemmas.IeeeNoise
import Verif.Props.IeeeNoise
import Verif.Lemmas.IeeeNoise2
import Verif.Props.IeeeNoise2
import Verif.Props.IeeeBaseband
import Verif.Lemmas.IeeeOfdmNoise
import Verif.Props.IeeeOfdmNoise
import Verif.Lemmas.IeeeCoded
import Verif.Props.IeeeCoded
import Verif.Lemmas.IeeeFskNoise
import Verif.Props.IeeeFskNoise
import Verif.Lemmas.Guards
import Verif.Props.Guards
import Verif.F64.CMul
import Verif.Lemmas.IeeeSsca
import Verif.Props.IeeeSsca
import Verif.Lemmas.IeeeChaosNoise
import Verif.Props.IeeeChaosNoise
import Verif.Lemmas.IeeeEnergy
import Verif.Props.IeeeEnergy
import Verif.Lemmas.IeeeSscaMap
import Verif.Props.IeeeSscaMap
import Verif.Lemmas.Jensen
import Verif.Props.Carrier
import Verif.Lemmas.IeeeChirp
import Verif.Props.IeeeChirp
import Verif.Lemmas.IeeeFm
import Verif.Props.IeeeFm
import Verif.Model.NoisyTests
import Verif.Props.NoisyTests
import Verif.Model.KomPyExample
import Verif.Lemmas.KomPyExample
import Verif.Props.KomPyExample
import Verif.Lemmas.IeeePassNoise
import Verif.Props.IeeePassNoise
import Verif.Model.NormTest
import Verif.Lemmas.NormTest
import Verif.Props.NormTest
import Verif.Spec.UpDown
import Verif.Lemmas.UpDown
import Verif.Props.UpDown
import Verif.Spec.Chips
import Verif.Lemmas.Chips
import Verif.Props.Chips
import Verif.Props.ChipsNoise
import Verif.Lemmas.IeeeChips
import Verif.Props.IeeeChips
