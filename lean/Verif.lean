import Verif.Model.Tool
import Verif.Audit
import Verif.Conformance
