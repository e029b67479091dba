import Verif.ShuntProps
import Verif.HeapProps
import Verif.GcProps
import Verif.ArithProps
import Verif.DataProps
import Verif.RandProps
import Verif.SetProps
import Verif.SmidProps
import Verif.CoreProps
import Verif.TarjanProps
import Verif.SplitProps
import Verif.FlatProps
import Verif.CompressProps
import Verif.EscapeProps
import Verif.LexProps
import Verif.StrPatProps
import Verif.BcProps
import Verif.EnvProps
import Verif.ScopeProps
import Verif.AnaCook
import Verif.CacheProps
import Verif.InputProps
import Verif.ImportProps
import Verif.SubtypeProps
import Verif.ParseModel
import Verif.ParseSink
import Verif.ParseBlock
import Verif.ParseSpec
import Verif.ParseLemmas
import Verif.ParseElem
import Verif.ParseLex
import Verif.ParseEnds
import Verif.ParseProps
import Verif.PruneModel
import Verif.PruneSpec
import Verif.PruneLemmas
import Verif.PruneMark
import Verif.PruneTrav
import Verif.PruneSem
import Verif.PruneLive
import Verif.PruneProps
import Verif.EngModel
import Verif.EngSpec
import Verif.EngLemmas
import Verif.EngDecode
import Verif.EngProps
import Verif.SemSpec
import Verif.SemCek
import Verif.SemAdequacy
import Verif.SemRed
import Verif.MachModel
import Verif.MachLemmas
import Verif.MachSpec
import Verif.MachSim
import Verif.MachStep
import Verif.MachRun
import Verif.MachHoles
import Verif.MachProps
import Verif.MachFair
import Verif.OptModel
import Verif.OptSpec
import Verif.OptRel
import Verif.OptSim
import Verif.OptSound
import Verif.OptScope
import Verif.OptProps
import Verif.ExportModel
import Verif.ExportSpec
import Verif.ExportLemmas
import Verif.ExportAcc
import Verif.ExportMaps
import Verif.ExportMarkup
import Verif.ExportProps
import Verif.CompModel
import Verif.CompSpec
import Verif.CompInv
import Verif.CompRel
import Verif.CompMark
import Verif.CompSound
import Verif.CompSim
import Verif.CompScope
import Verif.CompProps
import Verif.CompRun
import Verif.DemModel
import Verif.DemSpec
import Verif.DemLoops
import Verif.DemWalk
import Verif.DemSame
import Verif.DemProps
import Verif.IoModel
import Verif.IoSpec
import Verif.IoSim
import Verif.IoRun
import Verif.IoSem
import Verif.IoWhole
import Verif.IoProps
import Verif.PipeModel
import Verif.PipeProps
import Verif.InlModel
import Verif.InlSpec
import Verif.InlTrav
import Verif.InlDist
import Verif.InlDist2
import Verif.InlSim
import Verif.InlShow
import Verif.InlFresh
import Verif.InlBeta
import Verif.InlProps
import Verif.ParModel
import Verif.ParEnc
import Verif.ParArena
import Verif.ParDrive
import Verif.ParSpec
import Verif.ParCodec
import Verif.ParProper
import Verif.ParProps
import Verif.GraphModel
import Verif.GraphSpec
import Verif.GraphUnion
import Verif.GraphTopo
import Verif.GraphProps
import Verif.FmtModel
import Verif.FmtSpec
import Verif.FmtRelex
import Verif.FmtShift
import Verif.FmtLexes
import Verif.FmtFix
import Verif.FmtWalk
import Verif.FmtColumn
import Verif.FmtProps
import Verif.ArrModel
import Verif.ArrSpec
import Verif.ArrLemmas
import Verif.ArrOps
import Verif.ArrEmit
import Verif.ArrProps
import Verif.YamlModel
import Verif.YamlSpec
import Verif.YamlScalar
import Verif.YamlRun
import Verif.YamlMean
import Verif.YamlData
import Verif.YamlProps
import Verif.FoldSim
import Verif.FuseModel
import Verif.FuseSpec
import Verif.FuseRun
import Verif.FuseLemmas
import Verif.HoistLemmas
import Verif.FuseProps
import Verif.SuiteModel
import Verif.SuiteSpec
import Verif.SuiteLemmas
import Verif.SuiteProps
import Verif.PrintfModel
import Verif.PrintfSpec
import Verif.PrintfLemmas
import Verif.Base64Lemmas
import Verif.PrintfProps
import Verif.LibModel
import Verif.LibSpec
import Verif.LibLemmas
import Verif.LibProps
import Verif.NestModel
import Verif.NestSpec
import Verif.NestLemmas
import Verif.NestProps
import Verif.ArgsModel
import Verif.ArgsSpec
import Verif.ArgsLemmas
import Verif.ArgsProps
import Verif.UnifyModel
import Verif.UnifySpec
import Verif.UnifyLemmas
import Verif.UnifyEnds
import Verif.UnifyProps
import Verif.LensModel
import Verif.LensSpec
import Verif.LensLemmas
import Verif.LensTrav
import Verif.LensParts
import Verif.LensProps
import Verif.EffModel
import Verif.EffSpec
import Verif.EffProps
import Verif.MonBlkModel
import Verif.MonBlkSpec
import Verif.MonBlkProps
import Verif.ContractModel
import Verif.ContractSpec
import Verif.ContractProps
