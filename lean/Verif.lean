import Verif.Props.Word
import Verif.Props.ZQ
import Verif.Props.Str
import Verif.Props.Util
import Verif.Props.NTT
import Verif.Props.CRT
import Verif.Props.Conv
import Verif.Props.Core
import Verif.Props.Rot
import Verif.Props.Matrix
import Verif.Props.DFT
import Verif.Props.Endecode
import Verif.Props.LinTrans
import Verif.Props.CtS
import Verif.Props.Poly
import Verif.Props.Par
import Verif.Props.Static
import Verif.Props.Canonical
import Verif.Props.EvalMod
import Verif.Props.Boot
import Verif.Props.Raise
import Verif.Props.Draws
import Verif.Props.Driver
import Verif.Props.Measure
import Verif.Props.Sup
import Verif.Props.Design
import Verif.Props.Tests
import Verif.Props.HomTests
import Verif.Props.CtsTests
import Verif.Props.LtTest
import Verif.Props.ModTest
import Verif.Props.Section3
import Verif.Props.SingleMatmul
import Verif.Props.SerialMatmul
import Verif.Props.DftTest
import Verif.Props.BEvalmod
import Verif.Props.Float
import Verif.Props.FloatCode
import Verif.Props.FloatMat
import Verif.Props.Ieee
import Verif.Props.FloatStC
import Verif.Props.FloatEvalMod
import Verif.Props.FloatBoot
import Verif.Props.FloatBoot2
import Verif.Props.FloatDriver
import Verif.Props.FloatWord
import Verif.Props.FloatMessage
import Verif.Props.RaiseProb
import Verif.Props.KeyUniform
import Verif.Props.Print
import Verif.Props.MatrixOut
import Verif.Props.FloatSection3
import Verif.Props.FloatTests
import Verif.Props.FloatDft
import Verif.Props.FloatLtTest
import Verif.Props.FloatBEvalmod
import Verif.Props.FloatMeasure
import Verif.Props.FloatDesign
import Verif.Props.FloatMatmul
import Verif.Props.FloatSerial
import Verif.Props.FloatSup
import Verif.Props.FloatMatTest
import Verif.Props.FloatCtsErr
import Verif.Props.EncNoise
import Verif.Props.SwitchProb
import Verif.Props.RescaleProb
import Verif.Props.FreshProb
import Verif.Props.Safe
import Verif.Props.ConvProb
import Verif.Props.EndToEndProb
import Verif.Props.Reach
import Verif.Props.EndToEndSafe
import Verif.Props.Parity
import Verif.Props.InPlace
import Verif.Props.InPlaceRing
import Verif.Props.Unseeded
import Verif.Props.KeyLeak
import Verif.Props.InPlaceLT
import Verif.Props.SimpleNorm
import Verif.Props.SimpleRing
import Verif.Props.InPlaceSimple
import Verif.Props.InPlaceMvp
import Verif.Props.InPlaceMat
import Verif.Props.InPlaceEnc
import Verif.Props.InPlaceInt
