import Verif.Props.Helpers
import Verif.Props.Marshal
import Verif.Props.Unmarshal
import Verif.Props.UnmarshalRuns
import Verif.Props.Decode
import Verif.Props.Reject
import Verif.Props.Fields
import Verif.Props.Equal
import Verif.Props.Pool
import Verif.Props.RoundTrip
import Verif.Props.Clone
import Verif.Props.Pattern
import Verif.Props.Config
import Verif.Props.Codec
import Verif.Props.Heap
import Verif.Props.Presence
import Verif.Props.Grpc
import Verif.Spec.HeapVal
import Verif.Lemmas.HeapRep
import Verif.Lemmas.HeapSim
import Verif.Lemmas.HeapSimOps
import Verif.Lemmas.HeapSimDec
import Verif.Lemmas.HeapSimMsg
import Verif.Lemmas.HeapSimLoop
import Verif.Lemmas.HeapFuel
import Verif.Lemmas.HeapSimReset
import Verif.Spec.HeapPool
import Verif.Lemmas.HeapPoolSim
import Verif.Lemmas.HeapSimClone
import Verif.Lemmas.HeapPoolDec
import Verif.Spec.HeapProgram
import Verif.Lemmas.HeapProgram
import Verif.Lemmas.AlikeMarshal
import Verif.Lemmas.AlikeEqual
import Verif.Props.HeapProgram
import Verif.Props.HeapVal
import Verif.Model.Generate
import Verif.Spec.Generate
import Verif.Lemmas.Generate
import Verif.Lemmas.GenerateDecls
import Verif.Lemmas.GenerateFiles
import Verif.Lemmas.GenerateWrap
import Verif.Props.Generate
import Verif.Spec.Reorder
import Verif.Lemmas.Reorder
import Verif.Spec.Evolve
import Verif.Lemmas.EvolveElem
import Verif.Lemmas.EvolveSlots
import Verif.Lemmas.EvolveMsg
import Verif.Lemmas.Evolve
import Verif.Lemmas.NoNaN
import Verif.Props.Evolve
import Verif.Model.Go
import Verif.Model.EmitSize
import Verif.Model.EmitMarshal
import Verif.Lemmas.EmitSize
import Verif.Lemmas.EmitWriter
import Verif.Lemmas.EmitPacked
import Verif.Lemmas.EmitCalls
import Verif.Lemmas.EmitMarshal
import Verif.Lemmas.EmitSized
import Verif.Props.Emit
import Verif.Model.EmitUnmarshal
import Verif.Props.EmitUnmarshal
import Verif.Props.EmitEqual
import Verif.Model.GoH
import Verif.Model.EmitClone
import Verif.Model.EmitPool
import Verif.Lemmas.GoHPool
import Verif.Lemmas.GoH
import Verif.Lemmas.GoHClone
import Verif.Lemmas.GoHMethod
import Verif.Props.EmitClone
import Verif.Props.EmitPool
import Verif.Props.Conc
import Verif.Lemmas.ConcLaw
import Verif.Spec.ConcVal
import Verif.Lemmas.ConcVirt
import Verif.Lemmas.ConcVal
import Verif.Props.ConcVal
import Verif.Model.ConcRead
import Verif.Spec.ConcRead
import Verif.Lemmas.ConcRead
import Verif.Lemmas.ConcReadSize
import Verif.Lemmas.ConcReadMarshal
import Verif.Lemmas.ConcReadEqual
import Verif.Lemmas.EqualFuel
import Verif.Lemmas.ConcLook
import Verif.Props.ConcRead
import Verif.Props.Pooled
import Verif.Props.PooledFields
import Verif.Spec.Braces
import Verif.Lemmas.PatternBraces
import Verif.Props.Braces
import Verif.Lemmas.ReuseShuffle
import Verif.Props.PooledEvolve
import Verif.Spec.Chunks
import Verif.Lemmas.Chunks
import Verif.Props.Chunks
import Verif.Spec.Made
import Verif.Lemmas.Made
import Verif.Lemmas.MadeEncode
import Verif.Lemmas.LooseBack
import Verif.Props.Reencode
import Verif.Spec.Volume
import Verif.Lemmas.Volume
import Verif.Lemmas.Bomb
import Verif.Lemmas.Ladder
import Verif.Props.Volume
import Verif.Spec.Nesting
import Verif.Lemmas.Nesting
import Verif.Props.Nesting
import Verif.Lemmas.Levels
import Verif.Lemmas.LevelsFuel
import Verif.Lemmas.LevelsEqual
import Verif.Lemmas.LevelsClone
import Verif.Props.Levels
import Verif.Props.EmitBounds
import Verif.Props.EmitEvolve
import Verif.Lemmas.SizeVolume
import Verif.Props.Amplify
import Verif.Props.EmitAmplify
import Verif.Lemmas.CloneVolume
import Verif.Lemmas.ResetVolume
import Verif.Props.Hoard
