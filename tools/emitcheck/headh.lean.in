import Verif.Model.EmitPool
open Vtp Vtp.GoH
