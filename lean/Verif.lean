import Verif.Props.C01_C02
import Verif.Props.C03_C04
import Verif.Props.C05_C09
import Verif.Props.C10_C19
import Verif.Props.C11_C12
import Verif.Props.C19_C48
import Verif.Props.C20_C25
import Verif.Props.C27_C32
import Verif.Props.C33_C36
import Verif.Props.C35
import Verif.Props.C39_C44
import Verif.Props.C26_C29
import Verif.Props.C43_C46
import Verif.Props.C49_C52
import Verif.Props.C53
import Verif.Props.C54_C56
import Verif.Props.C57_C58
import Verif.Props.C59_C60
import Verif.Props.C61
import Verif.Props.C62
import Verif.Props.C63
import Verif.Props.C64
import Verif.Props.C65
import Verif.Props.C66
import Verif.Props.C67_C68
import Verif.Props.C69
import Verif.Props.C70
import Verif.Props.C71
import Verif.Props.C72_C73
import Verif.Props.C74
import Verif.Props.C75
import Verif.Props.C76
import Verif.Props.C50
import Verif.Props.C77
import Verif.Props.C78
import Verif.Props.C79
import Verif.Props.C80
import Verif.Props.C81
import Verif.Props.C82
import Verif.Props.C83
import Verif.Props.C84
import Verif.Props.C85
import Verif.Props.C86
import Verif.Props.C87
import Verif.Props.C88
import Verif.Props.C89
import Verif.Props.C90
import Verif.Props.C91
import Verif.Props.C92
import Verif.Props.C93
import Verif.Props.C94
import Verif.Props.C96
import Verif.Props.C97
import Verif.Props.C98
import Verif.Props.C99
import Verif.Tests.Repo
import Verif.Tests.Spec
