import Verif.Model.EmitEqual
open Vtp Vtp.GoE
