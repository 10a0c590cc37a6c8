import Verif.Model.EmitUnmarshal
open Vtp Vtp.GoU
