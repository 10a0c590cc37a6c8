import Verif.Model.EmitMarshal
open Vtp Vtp.Go
